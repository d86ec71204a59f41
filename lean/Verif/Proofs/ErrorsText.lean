import Verif.Proofs.Errors
import Verif.Proofs.TextMain

/-!
# The payload of parse errors: productions and whole texts
-/

set_option autoImplicit false

namespace Bnf.E
open Bnf Bnf.Spec

variable {F : Format} {α : Type}

theorem opt_ok {a : P α} {s r v} : opt a s = .ok r v ↔ (∃ x, a s = .ok r x ∧ v = some x) ∨
    ((∃ i k, a s = .err i k) ∧ r = s ∧ v = none) := by
  simp only [opt]
  cases a s with
  | fuel => simp
  | err i k => simp [eq_comm]
  | ok r' x => simp [eq_comm]

theorem opt_err {a : P α} {s i k} : opt a s ≠ .err i k := by
  simp only [opt]
  cases a s <;> simp

theorem andThen_ok {β : Type} {x : Res α} {f : Str → α → Res β} {r w} :
    x.andThen f = .ok r w ↔ ∃ r' v, x = .ok r' v ∧ f r' v = .ok r w := by
  cases x <;> simp [Res.andThen]

/-! ## Left-hand sides -/

theorem dropWhile_nil {b : Char} {s : Str} (h : Lacks [b] (s.dropWhile fun c => !(c == b))) :
    b ∉ s ∧ (s.dropWhile fun c => !(c == b)) = [] := by
  induction s with
  | nil => exact ⟨by simp, rfl⟩
  | cons c s ih =>
    by_cases hc : c = b
    · subst hc
      simp only [List.dropWhile_cons, beq_self_eq_true, Bool.not_true, Bool.false_eq_true, if_false] at h
      exact absurd rfl (h s)
    · simp only [List.dropWhile_cons, hc, not_false_eq_true, Bool.not_eq_true', beq_eq_false_iff_ne, ne_eq, if_true] at h ⊢
      obtain ⟨h1, h2⟩ := ih h
      exact ⟨by simp [h1, Ne.symm hc], h2⟩

theorem dropWhile_of_not_mem {b : Char} {s : Str} (h : b ∉ s) : (s.dropWhile fun c => !(c == b)) = [] := by
  induction s with
  | nil => rfl
  | cons c s ih =>
    simp only [List.mem_cons, not_or] at h
    have : (c == b) = false := beq_eq_false_iff_ne.mpr (Ne.symm h.1)
    simp only [List.dropWhile_cons, this, Bool.not_false, if_true]
    exact ih h.2

theorem name_err {s i k} : nameText F s = .err i k ↔ NameFault F s i k := by
  unfold nameText NameFault
  rcases F.nonterminalDelimiter with _ | ⟨a, b⟩
  · simp only [andThen_err, takeTill]
    cases s with
    | nil =>
      simp only [satisfy, Res.err.injEq, reduceCtorEq, false_and, exists_false, or_false, false_imp_iff, implies_true, true_and]
      exact and_congr eq_comm eq_comm
    | cons c s =>
      simp only [satisfy]
      by_cases h : F.isAlphabetic c = true
      · rw [if_pos h]
        simp only [reduceCtorEq, and_false, exists_false, or_false, false_iff, not_and]
        intro h'
        rw [h' c s rfl] at h
        cases h
      · rw [if_neg h]
        simp only [Res.err.injEq, reduceCtorEq, false_and, exists_false, or_false]
        constructor
        · rintro ⟨rfl, rfl⟩
          refine ⟨?_, rfl, rfl⟩
          intro d r e
          injection e with e _
          subst e
          exact Bool.not_eq_true _ ▸ h
        · rintro ⟨_, rfl, rfl⟩
          exact ⟨rfl, rfl⟩
  · simp only [delimited, andThen_err, char_err, char_ok, takeTill, Res.ok.injEq, reduceCtorEq, false_or]
    constructor
    · rintro (h | ⟨t, _, ⟨rfl, rfl⟩, _, _, ⟨rfl, rfl⟩, ⟨h, rfl, rfl⟩ | ⟨_, _, _, h⟩⟩)
      · exact .inl h
      · obtain ⟨h1, h2⟩ := dropWhile_nil h
        exact .inr ⟨t, rfl, h1, h2, rfl⟩
      · exact h.elim
    · rintro (h | ⟨t, rfl, h1, rfl, rfl⟩)
      · exact .inl h
      · refine .inr ⟨t, a, ⟨rfl, rfl⟩, _, _, ⟨rfl, rfl⟩, .inl ⟨?_, (dropWhile_of_not_mem h1).symm, rfl⟩⟩
        rw [dropWhile_of_not_mem h1]
        intro r h; cases h

theorem name_ok (hF : F.Regular) {s r u} : nameText F s = .ok r u ↔ Name F u s r := (refines_nameText F).ok.trans (nameText_ok hF)

theorem lhs_err (hF : F.Regular) {s i k} : parsedProdLhs F s = .err i k ↔ LhsFault F s i k := by
  simp only [parsedProdLhs, andThen_err, ws_eq, andThen_of_ok, name_err, name_ok hF, tag_err, opt_err, reduceCtorEq,
    and_false, exists_false, or_false]
  refine or_congr Iff.rfl ⟨?_, ?_⟩
  · rintro ⟨r, u, h1, h2, rfl, rfl⟩
    exact ⟨u, r, h1, (layout_settled r).1, (layout_settled r).2, h2, rfl⟩
  · rintro ⟨u, r, h1, h2, h3, h4, rfl⟩
    have := layout_eq h2 (tight_iff_settled.mpr h3)
    subst this
    exact ⟨r, u, h1, h4, rfl, rfl⟩

theorem lhs_ok (hF : F.Regular) {s r u} : parsedProdLhs F s = .ok r u ↔ WholeLhs F u s r := by
  simp only [parsedProdLhs, andThen_ok, ws_eq, name_ok hF, tag_ok, opt_ok, char_ok, char_err, Res.ok.injEq]
  constructor
  · rintro ⟨s1, _, h1, _, _, ⟨rfl, _⟩, s2, _, h2, s3, _, h3, _, _, ⟨rfl, _⟩, rfl, rfl⟩
    refine ⟨s1, s2, s3, h1, by rw [← h2]; exact (layout_settled s1).1, ?_, layout_settled s3⟩
    rcases h3 with ⟨_, ⟨h3, _⟩, _⟩ | ⟨⟨_, _, h3, _⟩, rfl, _⟩
    · exact .inr h3
    · exact .inl ⟨rfl, h3⟩
  · rintro ⟨s1, s2, s3, h1, h2, h3, h4, h5⟩
    have e1 := layout_eq h2 (sep_tight hF s2)
    have e2 := layout_eq h4 (tight_iff_settled.mpr h5)
    rcases h3 with ⟨h3, h6⟩ | h3
    · exact ⟨s1, u, h1, _, (), ⟨rfl, trivial⟩, s2, (), e1.symm, s3, none, .inr ⟨⟨s2, .char, h6, rfl, rfl⟩, h3.symm, rfl⟩, _, (), ⟨rfl, trivial⟩, e2.symm, rfl⟩
    · exact ⟨s1, u, h1, _, (), ⟨rfl, trivial⟩, s2, (), e1.symm, s3, some _, .inl ⟨_, ⟨h3, rfl⟩, rfl⟩, _, (), ⟨rfl, trivial⟩, e2.symm, rfl⟩

theorem lhs_no_fuel (s : Str) : parsedProdLhs F s ≠ .fuel := fun h =>
  parsedProdLhs_no_fuel s ((refines_parsedProdLhs F).fuel.mp h)

theorem whole_lhs {u s r} (h : WholeLhs F u s r) : Lhs F u s r ∧ Settled r := by
  obtain ⟨s1, s2, s3, h1, h2, h3, h4, h5⟩ := h
  exact ⟨⟨s1, s2, s3, h1, h2, h3.imp And.left id, h4⟩, h5⟩

theorem lhs_whole {u s r} (h : Lhs F u s r) : ∃ r', WholeLhs F u s r' := by
  obtain ⟨s1, s2, _, h1, h2, _, _⟩ := h
  by_cases hs : Lacks [F.alternativeSeparator] s2
  · exact ⟨_, s1, s2, s2, h1, h2, .inl ⟨rfl, hs⟩, layout_settled s2⟩
  · simp only [Lacks, ne_eq, not_forall, not_not] at hs
    obtain ⟨s3, rfl⟩ := hs
    exact ⟨_, s1, _, s3, h1, h2, .inr rfl, layout_settled s3⟩

theorem follow_stop (hF : F.Regular) {r} (h : Follow F r) (hr : ∀ cs, r ≠ F.alternativeSeparator :: cs) : Stop F r :=
  ⟨tight_iff_settled.mp (follow_tight hF h), hr, lacks_iff_tag.mpr (tag_err_follow hF h),
    item_termsEnd hF (n := r.length + 1) (by omega) (item_err_follow hF h (by omega))⟩

theorem prodEnd_stop (hF : F.Regular) {r} (h : r = [] ∨ ∃ u r', Lhs F u r r') : Stop F r := by
  rcases h with rfl | ⟨u, r', h⟩
  · exact follow_stop hF (.inl rfl) (by intro cs h; cases h)
  · refine follow_stop hF ?_ (starts_ne_altSep hF (nameStart_starts h.start))
    obtain ⟨s1, s2, _, h1, h2, _⟩ := h
    exact .inr (.inr ⟨u, s1, s2, h1, h2⟩)

/-! ## Productions -/

/-- The lookahead at the end of a production. -/
def endP (F : Format) : P Unit := alt (recognize (peek eof)) (recognize (peek (parsedProdLhs F)))

theorem endP_ok (hF : F.Regular) {s r v} : endP F s = .ok r v ↔ r = s ∧ (s = [] ∨ ∃ u r', Lhs F u s r') := by
  simp only [endP, alt, recognize, peek]
  cases s with
  | nil => simp [eof, Res.andThen, eq_comm]
  | cons c cs =>
    simp only [eof, andThen_of_err, andThen_ok, Res.ok.injEq, reduceCtorEq, false_or, lhs_ok hF]
    constructor
    · rintro ⟨_, _, ⟨r', u, h, rfl, rfl⟩, rfl, _⟩
      exact ⟨rfl, u, r', (whole_lhs h).1⟩
    · rintro ⟨rfl, u, r', h⟩
      obtain ⟨r'', h⟩ := lhs_whole h
      exact ⟨_, u, ⟨r'', u, h, rfl, rfl⟩, rfl, trivial⟩

theorem endP_err (hF : F.Regular) {s i k} : endP F s = .err i k ↔ s ≠ [] ∧ LhsFault F s i k := by
  simp only [endP, alt, recognize, peek]
  cases s with
  | nil => simp [eof, Res.andThen]
  | cons c cs =>
    simp only [eof, andThen_of_err, andThen_err, reduceCtorEq, and_false, exists_false, or_false, lhs_err hF, ne_eq,
      not_false_eq_true, true_and]

theorem prod_ok (hF : F.Regular) {n s r p} (hn : s.length < n) : parsedProduction F n s = .ok r p ↔ WholeProd F p s r := by
  have e : ∀ s, parsedProduction F n s = (parsedProdLhs F s).andThen fun s lhs =>
    (parsedProdRhs F n s).andThen fun s rhs => (endP F s).andThen fun s _ => .ok s ⟨lhs, rhs⟩ := fun _ => rfl
  rw [e]
  simp only [andThen_ok, lhs_ok hF, endP_ok hF, Res.ok.injEq]
  constructor
  · rintro ⟨s1, u, h1, s2, as, h2, _, _, ⟨rfl, h3⟩, rfl, rfl⟩
    have := (whole_lhs h1).1.suffix.2
    exact ⟨⟨s1, (whole_lhs h1).1, ((alts_ok hF (by omega)).mp h2).1⟩, h3⟩
  · rintro ⟨⟨s1, h1, h2⟩, h3⟩
    have := h1.suffix.2
    have hw := (lhs_ok hF).mp ((refines_parsedProdLhs F).ok.mpr (lhs_complete hF h1 (syn_tight hF h2) (starts_ne_altSep hF h2.start)))
    exact ⟨s1, p.lhs, hw, r, p.rhs, (alts_ok hF (by omega)).mpr ⟨h2, prodEnd_stop hF h3⟩, r, (), ⟨rfl, h3⟩, rfl, rfl⟩

theorem prod_err (hF : F.Regular) {n s i k} (hn : s.length < n) : parsedProduction F n s = .err i k ↔ ProdFault F s i k := by
  have e : ∀ s, parsedProduction F n s = (parsedProdLhs F s).andThen fun s lhs =>
    (parsedProdRhs F n s).andThen fun s rhs => (endP F s).andThen fun s _ => .ok s ⟨lhs, rhs⟩ := fun _ => rfl
  rw [e]
  simp only [andThen_err, lhs_ok hF, lhs_err hF, endP_err hF, reduceCtorEq, and_false, exists_false, or_false, ProdFault]
  refine or_congr Iff.rfl ⟨?_, ?_⟩
  · rintro ⟨s1, u, h1, h | ⟨s2, as, h2, h3⟩⟩
    · have := (whole_lhs h1).1.suffix.2
      exact .inl ⟨u, s1, h1, (alts_err hF (by omega)).mp h⟩
    · have := (whole_lhs h1).1.suffix.2
      obtain ⟨h4, h5⟩ := (alts_ok hF (by omega)).mp h2
      exact .inr ⟨u, s1, as, s2, h1, h4, h5, h3⟩
  · rintro (⟨u, s1, h1, h⟩ | ⟨u, s1, as, s2, h1, h4, h5, h3⟩)
    · have := (whole_lhs h1).1.suffix.2
      exact ⟨s1, u, h1, .inl ((alts_err hF (by omega)).mpr h)⟩
    · have := (whole_lhs h1).1.suffix.2
      exact ⟨s1, u, h1, .inr ⟨s2, as, (alts_ok hF (by omega)).mpr ⟨h4, h5⟩, h3⟩⟩

/-! ## Whole texts -/

theorem prodEnd_settled (hF : F.Regular) {r} (h : r = [] ∨ ∃ u r', Lhs F u r r') : Settled r := (prodEnd_stop hF h).settled

theorem wholeProd_settled (hF : F.Regular) {p s r} (h : WholeProd F p s r) : Settled s :=
  tight_iff_settled.mp (name_tight hF h.1.start)

theorem wholeProds_settled (hF : F.Regular) {ps s r} (h : WholeProds F ps s r) : Settled s := by
  cases h with
  | one h => exact wholeProd_settled hF h
  | more h _ => exact wholeProd_settled hF h

theorem pw_eq (n : Nat) (s : Str) : preceded whitespacePlusComments (parsedProduction F n) s = parsedProduction F n (skipM false s) := by
  simp only [preceded, ws_eq, andThen_of_ok]

theorem skipM_settled {s : Str} (h : Settled s) : skipM false s = s := skipM_of_tight (tight_iff_settled.mpr h)

theorem pw_length (hF : F.Regular) {n s r p} (h : preceded whitespacePlusComments (parsedProduction F n) s = .ok r p) :
    r.length < s.length ∧ byteLen r < byteLen s := by
  rw [pw_eq] at h
  obtain ⟨⟨v, hv⟩, hlt⟩ := (parsedProduction_sound hF ((refines_parsedProduction F n).ok.mp h)).suffix
  obtain ⟨w, hw⟩ := (layout_skipM s).suffix
  have hl := skipM_length false s
  have : s = (w ++ v) ++ r := by rw [List.append_assoc, ← hv, ← hw]
  exact ⟨by omega, Nom.byteLen_lt_of_suffix _ this (by omega)⟩

theorem grammar_err (hF : F.Regular) {n s i k} (hn : s.length < n) : parsedGrammar F n s = .err i k ↔
    ∃ s1, Layout s s1 ∧ Settled s1 ∧ ProdFault F s1 i k := by
  have hl := skipM_length false s
  simp only [parsedGrammar, ws_eq, andThen_of_ok]
  rw [many1_err (fun s r v h => (pw_length hF h).2), pw_eq, skipM_settled (layout_settled s).2, prod_err hF (by omega)]
  constructor
  · exact fun h => ⟨_, (layout_settled s).1, (layout_settled s).2, h⟩
  · rintro ⟨s1, h1, h2, h⟩
    rwa [← settled_unique h1 h2 (layout_settled s).1 (layout_settled s).2]

theorem loop_ok (hF : F.Regular) {n : Nat} : ∀ {m s acc r ps}, s.length < n →
    manyLoop (preceded whitespacePlusComments (parsedProduction F n)) m s acc = .ok r ps → Settled s →
    (ps = acc ∧ r = s ∨ ∃ qs, ps = acc ++ qs ∧ WholeProds F qs s r) ∧ ∀ p r', ¬ WholeProd F p r r' := by
  intro m
  induction m with
  | zero => intro s acc r ps _ h; simp [manyLoop] at h
  | succ m ih =>
    intro s acc r ps hn h hs
    rw [manyLoop, pw_eq, skipM_settled hs] at h
    split at h
    · cases h
    · next i k h1 =>
      injection h with h2 h3
      subst h2 h3
      refine ⟨.inl ⟨rfl, rfl⟩, fun p r' hp => ?_⟩
      rw [(prod_ok hF hn).mpr hp] at h1
      cases h1
    · next r1 p h1 =>
      have hp := (prod_ok hF hn).mp h1
      have hlt := hp.1.suffix.2
      split at h
      · cases h
      · obtain ⟨h2, h3⟩ := ih (by omega) h (prodEnd_settled hF hp.2)
        refine ⟨.inr ?_, h3⟩
        rcases h2 with ⟨rfl, rfl⟩ | ⟨qs, rfl, h2⟩
        · exact ⟨[p], rfl, .one hp⟩
        · exact ⟨p :: qs, by simp, .more hp h2⟩

theorem loop_complete (hF : F.Regular) {n : Nat} {r : Str} (hr : ∀ p r', ¬ WholeProd F p r r') (hs : Settled r) (hn : r.length < n)
    {m : Nat} {acc : ParsedGrammar} : manyLoop (preceded whitespacePlusComments (parsedProduction F n)) (m + 1) r acc = .ok r acc := by
  rw [manyLoop, pw_eq, skipM_settled hs]
  cases h : parsedProduction F n r with
  | fuel => exact absurd ((refines_parsedProduction F n).fuel.mp h) (parsedProduction_no_fuel hF hn)
  | err i k => rfl
  | ok r' p => exact absurd ((prod_ok hF hn).mp h) (hr p r')

theorem loop_of_prods (hF : F.Regular) {n : Nat} {ps s r} (h : WholeProds F ps s r) (hr : ∀ p r', ¬ WholeProd F p r r') :
    ∀ {m acc}, s.length < n → s.length < m →
    manyLoop (preceded whitespacePlusComments (parsedProduction F n)) m s acc = .ok r (acc ++ ps) := by
  induction h with
  | @one p s r h =>
    intro m acc hn hm
    obtain ⟨m, rfl⟩ : ∃ m', m = m' + 1 := ⟨m - 1, by omega⟩
    have h1 : preceded whitespacePlusComments (parsedProduction F n) s = .ok r p := by
      rw [pw_eq, skipM_settled (wholeProd_settled hF h), (prod_ok hF hn).mpr h]
    obtain ⟨h2, h3⟩ := pw_length hF h1
    rw [manyLoop, h1]
    simp only
    rw [if_neg (by omega)]
    obtain ⟨m, rfl⟩ : ∃ m', m = m' + 1 := ⟨m - 1, by omega⟩
    exact loop_complete hF hr (prodEnd_settled hF h.2) (by omega)
  | @more p ps s s' r h _ ih =>
    intro m acc hn hm
    obtain ⟨m, rfl⟩ : ∃ m', m = m' + 1 := ⟨m - 1, by omega⟩
    have h1 : preceded whitespacePlusComments (parsedProduction F n) s = .ok s' p := by
      rw [pw_eq, skipM_settled (wholeProd_settled hF h), (prod_ok hF hn).mpr h]
    obtain ⟨h2, h3⟩ := pw_length hF h1
    rw [manyLoop, h1]
    simp only
    rw [if_neg (by omega), ih hr (by omega) (by omega)]
    simp

theorem grammar_ok (hF : F.Regular) {n s r ps} (hn : s.length < n) : parsedGrammar F n s = .ok r ps ↔
    ∃ s1, Layout s s1 ∧ Settled s1 ∧ WholeProds F ps s1 r ∧ ∀ p r', ¬ WholeProd F p r r' := by
  have hl := skipM_length false s
  simp only [parsedGrammar, ws_eq, andThen_of_ok, many1, andThen_ok, pw_eq, skipM_settled (layout_settled s).2]
  constructor
  · rintro ⟨r1, p, h1, h2⟩
    have hp := (prod_ok hF (by omega)).mp h1
    have hlt := hp.1.suffix.2
    obtain ⟨h3, h4⟩ := loop_ok hF (by omega) h2 (prodEnd_settled hF hp.2)
    refine ⟨_, (layout_settled s).1, (layout_settled s).2, ?_, h4⟩
    rcases h3 with ⟨rfl, rfl⟩ | ⟨qs, rfl, h3⟩
    · exact .one hp
    · exact .more hp h3
  · rintro ⟨s1, h1, h2, h3, h4⟩
    have e := settled_unique h1 h2 (layout_settled s).1 (layout_settled s).2
    subst e
    cases h3 with
    | one h =>
      have hlt := h.1.suffix.2
      refine ⟨r, _, (prod_ok hF (by omega)).mpr h, ?_⟩
      obtain ⟨n, rfl⟩ : ∃ m', n = m' + 1 := ⟨n - 1, by omega⟩
      exact loop_complete hF h4 (prodEnd_settled hF h.2) (by omega)
    | more h h' =>
      have hlt := h.1.suffix.2
      refine ⟨_, _, (prod_ok hF (by omega)).mpr h, ?_⟩
      exact loop_of_prods hF h' h4 (by omega) (by omega)

theorem complete_err (hF : F.Regular) {n s i k} (hn : s.length < n) : parsedGrammarComplete F n s = .err i k ↔ TextFault F s i k := by
  simp only [parsedGrammarComplete, allConsuming, andThen_err, grammar_err hF hn, grammar_ok hF hn, TextFault]
  constructor
  · rintro (⟨s1, h1, h2, h3⟩ | ⟨r, ps, ⟨s1, h1, h2, h3, h4⟩, h5⟩)
    · exact ⟨s1, h1, h2, .inl h3⟩
    · cases r with
      | nil => cases h5
      | cons c r =>
        injection h5 with h5 h6
        subst h5 h6
        exact ⟨s1, h1, h2, .inr ⟨ps, h3, by simp, h4, rfl⟩⟩
  · rintro ⟨s1, h1, h2, h3 | ⟨ps, h3, h4, h5, rfl⟩⟩
    · exact .inl ⟨s1, h1, h2, h3⟩
    · refine .inr ⟨i, ps, ⟨s1, h1, h2, h3, h5⟩, ?_⟩
      cases i with
      | nil => exact absurd rfl h4
      | cons c i => rfl

theorem grammarComplete_err (hF : F.Regular) {s i k} : grammarComplete F s = .err i k ↔ TextFault F s i k := by
  rw [← complete_err hF (Nat.lt_succ_self _)]
  have hx : ∀ {i k}, ((parsedGrammarComplete F (s.length + 1) s).andThen fun s parsed =>
      match normalizeParsedGrammar parsed with
      | none => Res.fuel
      | some g => Res.ok s g) = .err i k ↔ parsedGrammarComplete F (s.length + 1) s = .err i k := by
    intro i k
    rw [andThen_err]
    refine ⟨?_, .inl⟩
    rintro (h | ⟨r, v, _, h⟩)
    · exact h
    · revert h; cases normalizeParsedGrammar v <;> simp
  have hb : Bnf.grammarComplete F s = .err ↔ ∃ i k, parsedGrammarComplete F (s.length + 1) s = .err i k := by
    rw [(refines_parsedGrammarComplete F _).err, Bnf.grammarComplete, grammarCompleteFuel_eq hF (Nat.lt_succ_self _),
      extendedResult, Bnf.Res.andThen_err]
    refine ⟨?_, .inl⟩
    rintro (h | ⟨r, v, _, h⟩)
    · exact h
    · revert h; cases normalizeParsedGrammar v <;> simp
  constructor
  · intro h
    simp only [grammarComplete] at h
    by_cases hs : grammarHasExtendedSyntax s = true
    · rw [if_pos hs] at h; exact hx.mp h
    · rw [if_neg hs] at h
      split at h
      · cases h
      · exact hx.mp h
      · cases h
  · intro h
    obtain ⟨i', k', h'⟩ := (refines_grammarComplete F).err.mpr (hb.mpr ⟨i, k, h⟩)
    rw [h']
    simp only [grammarComplete] at h'
    by_cases hs : grammarHasExtendedSyntax s = true
    · rw [if_pos hs] at h'
      rw [hx.mp h'] at h; injection h with h1 h2; rw [h1, h2]
    · rw [if_neg hs] at h'
      split at h'
      · cases h'
      · rw [hx.mp h'] at h; injection h with h1 h2; rw [h1, h2]
      · cases h'

/-! ## Where the fault lies -/

theorem altsFault_suffix {s i k} (h : AltsFault F s i k) : i <:+ s ∧ (k = .char ∨ k = .not) := by
  induction h with
  | noTerm _ _ => exact ⟨List.suffix_refl _, .inl rfl⟩
  | inside _ ih => exact ⟨ih.1.trans (List.suffix_cons _ _), ih.2⟩
  | unclosed h _ _ =>
    obtain ⟨⟨v, hv⟩, _⟩ := h.suffix
    exact ⟨(show _ <:+ _ from ⟨v, hv.symm⟩).trans (List.suffix_cons _ _), .inl rfl⟩
  | separator h =>
    obtain ⟨⟨v, hv⟩, _⟩ := h.suffix
    exact ⟨⟨v, hv.symm⟩, .inr rfl⟩
  | later h hl _ _ ih =>
    obtain ⟨⟨v, hv⟩, _⟩ := h.suffix
    obtain ⟨w, hw⟩ := hl.suffix
    refine ⟨ih.1.trans ⟨v ++ F.alternativeSeparator :: w, ?_⟩, ih.2⟩
    rw [hv, hw]; simp

theorem nameFault_suffix {s i k} (h : NameFault F s i k) : i <:+ s ∧ (k = if F.nonterminalDelimiter.isSome then .char else .satisfy) := by
  unfold NameFault at h
  revert h
  rcases F.nonterminalDelimiter with _ | ⟨a, b⟩ <;> intro h
  · obtain ⟨_, rfl, rfl⟩ := h
    exact ⟨List.suffix_refl _, rfl⟩
  · rcases h with ⟨_, rfl, rfl⟩ | ⟨r, rfl, _, rfl, rfl⟩
    · exact ⟨List.suffix_refl _, rfl⟩
    · exact ⟨List.nil_suffix, rfl⟩

theorem layout_is_suffix {s r : Str} (h : Layout s r) : r <:+ s := by
  obtain ⟨u, rfl⟩ := h.suffix
  exact List.suffix_append u r

theorem lhsFault_suffix {s i k} (h : LhsFault F s i k) : i <:+ s ∧
    (k = .tag ∨ k = if F.nonterminalDelimiter.isSome then .char else .satisfy) := by
  rcases h with h | ⟨u, r, h1, h2, _, _, rfl⟩
  · exact ⟨(nameFault_suffix h).1, .inr (nameFault_suffix h).2⟩
  · obtain ⟨⟨v, hv⟩, _⟩ := h1.suffix
    exact ⟨(layout_is_suffix h2).trans ⟨v, hv.symm⟩, .inl rfl⟩

theorem prodFault_suffix {s i k} (h : ProdFault F s i k) : i <:+ s ∧
    (k = .tag ∨ k = .char ∨ k = .not ∨ (k = .satisfy ∧ F.nonterminalDelimiter = none)) := by
  have hk : ∀ {k : Kind}, (k = .tag ∨ k = if F.nonterminalDelimiter.isSome then .char else .satisfy) →
      (k = .tag ∨ k = .char ∨ k = .not ∨ (k = .satisfy ∧ F.nonterminalDelimiter = none)) := by
    rintro k (h | h)
    · exact .inl h
    · cases hd : F.nonterminalDelimiter with
      | none => rw [hd] at h; exact .inr (.inr (.inr ⟨h, rfl⟩))
      | some d => rw [hd] at h; exact .inr (.inl h)
  rcases h with h | ⟨u, r, h1, h2⟩ | ⟨u, r, as, r', h1, h2, _, _, h3⟩
  · exact ⟨(lhsFault_suffix h).1, hk (lhsFault_suffix h).2⟩
  · obtain ⟨⟨v, hv⟩, _⟩ := (whole_lhs h1).1.suffix
    obtain ⟨h3, h4⟩ := altsFault_suffix h2
    exact ⟨h3.trans ⟨v, hv.symm⟩, h4.elim (fun h => .inr (.inl h)) fun h => .inr (.inr (.inl h))⟩
  · obtain ⟨⟨v, hv⟩, _⟩ := (whole_lhs h1).1.suffix
    obtain ⟨⟨w, hw⟩, _⟩ := h2.suffix
    obtain ⟨h4, h5⟩ := lhsFault_suffix h3
    exact ⟨(h4.trans ⟨w, hw.symm⟩).trans ⟨v, hv.symm⟩, hk h5⟩

theorem wholeProds_suffix {ps s r} (h : WholeProds F ps s r) : r <:+ s := by
  induction h with
  | one h => obtain ⟨⟨v, hv⟩, _⟩ := h.1.suffix; exact ⟨v, hv.symm⟩
  | more h _ ih => obtain ⟨⟨v, hv⟩, _⟩ := h.1.suffix; exact ih.trans ⟨v, hv.symm⟩

theorem textFault_suffix {s i k} (h : TextFault F s i k) : i <:+ s ∧
    (k = .eof ∨ k = .tag ∨ k = .char ∨ k = .not ∨ (k = .satisfy ∧ F.nonterminalDelimiter = none)) := by
  obtain ⟨s1, h1, _, h2 | ⟨ps, h2, _, _, rfl⟩⟩ := h
  · exact ⟨(prodFault_suffix h2).1.trans (layout_is_suffix h1), .inr (prodFault_suffix h2).2⟩
  · exact ⟨(wholeProds_suffix h2).trans (layout_is_suffix h1), .inl rfl⟩

/-! ## Single terms -/

theorem quoted_err {s} : (∃ i k, quotedText s = .err i k) ↔ ∀ u r, ¬ Quoted u s r := by
  rw [refines_quotedText.err]
  constructor
  · intro h u r hq
    rw [quotedText_ok.mpr hq] at h
    cases h
  · intro h
    cases h' : Bnf.quotedText s with
    | fuel => exact absurd h' (quotedText_no_fuel s)
    | err => rfl
    | ok r u => exact absurd (quotedText_ok.mp h') (h u r)

theorem term_fault (s i : Str) (k : Kind) : allConsuming (term BNF) s = .err i k ↔
    (((∀ u r, ¬ Quoted u s r) ∧ NameFault BNF s i k) ∨
      ((∃ u r, (Quoted u s r ∨ Name BNF u s r) ∧ Layout r i) ∧ Settled i ∧ i ≠ [] ∧ k = .eof)) := by
  have h1 : ∀ i k, terminal s = .err i k ↔ quotedText s = .err i k := by
    intro i k
    simp only [terminal, ws_eq, andThen_of_ok, andThen_err, reduceCtorEq, and_false, exists_false, or_false]
  have h2 : ∀ r, (∃ v, term BNF s = .ok r v) ↔ ∃ u r', (Quoted u s r' ∨ Name BNF u s r') ∧ r = skipM false r' := by
    intro r
    constructor
    · rintro ⟨v, h⟩
      have h := (refines_term BNF).ok.mp h
      simp only [Bnf.term, Nom.alt_ok, Bnf.terminal, Bnf.nonterminal, Bnf.Res.andThen_ok, quotedText_ok, nameText_ok BNF_regular.named,
        Bnf.ws_eq, Bnf.Res.ok.injEq] at h
      rcases h with ⟨r', u, hq, _, _, ⟨rfl, _⟩, rfl, _⟩ | ⟨_, r', u, hq, _, _, ⟨rfl, _⟩, rfl, _⟩
      · exact ⟨u, r', .inl hq, rfl⟩
      · exact ⟨u, r', .inr hq, rfl⟩
    · rintro ⟨u, r', hq | hq, rfl⟩
      · refine ⟨.terminal u, (refines_term BNF).ok.mpr ?_⟩
        simp only [Bnf.term, Nom.alt_ok, Bnf.terminal, quotedText_ok.mpr hq, Bnf.Res.andThen_of_ok, Bnf.ws_eq]
        exact .inl trivial
      · refine ⟨.nonterminal u, (refines_term BNF).ok.mpr ?_⟩
        have : Bnf.terminal s = .err := by
          obtain ⟨c, cs, rfl, hc⟩ := hq.start
          have := (BNF_regular.nameStart c hc).2
          simp only [Bnf.terminal]
          rw [quotedText_err (by rintro rfl; simp at this) (by rintro rfl; simp at this)]
          rfl
        simp only [Bnf.term, Nom.alt_of_err this, Bnf.nonterminal, (nameText_ok BNF_regular).mpr hq, Bnf.Res.andThen_of_ok, Bnf.ws_eq]
  simp only [allConsuming, andThen_err]
  refine or_congr ?_ ?_
  · simp only [term, alt_err, h1, quoted_err, nonterminal, ws_eq, andThen_of_ok, andThen_err, name_err, reduceCtorEq, and_false,
      exists_false, or_false]
  · constructor
    · rintro ⟨r, v, h, h3⟩
      obtain ⟨u, r', h4, rfl⟩ := (h2 r).mp ⟨v, h⟩
      split at h3
      · cases h3
      · next c cs e =>
        injection h3 with h5 h6
        subst h6
        rw [← h5, ← e]
        exact ⟨⟨u, r', h4, (layout_settled r').1⟩, (layout_settled r').2, by rw [e]; simp, rfl⟩
    · rintro ⟨⟨u, r', h4, h5⟩, h6, h7, rfl⟩
      have e := layout_eq h5 (tight_iff_settled.mpr h6)
      obtain ⟨v, h8⟩ := (h2 i).mpr ⟨u, r', h4, e⟩
      refine ⟨i, v, h8, ?_⟩
      cases i with
      | nil => exact absurd rfl h7
      | cons c cs => rfl

/-! ## Messages -/

theorem kind_debug_injective {k k' : Kind} (h : k.debug = k'.debug) : k = k' := by
  cases k <;> cases k' <;> first | rfl | (exact absurd h (by decide))

theorem kind_no_space (k : Kind) : ' ' ∉ k.debug := by cases k <;> decide

theorem append_sep {c : Char} {a b a' b' : Str} (h : c ∉ a) (h' : c ∉ a') (e : a ++ c :: b = a' ++ c :: b') : a = a' ∧ b = b' := by
  induction a generalizing a' with
  | nil =>
    cases a' with
    | nil => exact ⟨rfl, by simpa using e⟩
    | cons d a' =>
      simp only [List.nil_append, List.cons_append, List.cons.injEq] at e
      exact absurd (e.1 ▸ List.mem_cons_self) h'
  | cons d a ih =>
    cases a' with
    | nil =>
      simp only [List.nil_append, List.cons_append, List.cons.injEq] at e
      exact absurd (e.1 ▸ List.mem_cons_self) h
    | cons d' a' =>
      simp only [List.cons_append, List.cons.injEq] at e
      obtain ⟨rfl, e⟩ := e
      obtain ⟨rfl, rfl⟩ := ih (fun h1 => h (List.mem_cons_of_mem _ h1)) (fun h1 => h' (List.mem_cons_of_mem _ h1)) e
      exact ⟨rfl, rfl⟩

theorem message_injective {dbg : Str → Str} (hd : ∀ a b, dbg a = dbg b → a = b) {i i' k k'}
    (h : message dbg i k = message dbg i' k') : i = i' ∧ k = k' := by
  unfold message at h
  have h := List.append_cancel_right h
  rw [List.append_assoc, List.append_assoc, List.append_assoc messageHead, List.append_assoc messageHead] at h
  have h := List.append_cancel_left h
  have e : messageCode = [',', ' ', 'c', 'o', 'd', 'e', ':'] ++ [' '] := rfl
  rw [e] at h
  have h := congrArg List.reverse h
  simp only [List.reverse_append, List.reverse_cons, List.append_assoc, List.singleton_append] at h
  have hsp : ∀ k : Kind, ' ' ∉ k.debug.reverse := fun k => by rw [List.mem_reverse]; exact kind_no_space k
  obtain ⟨h1, h2⟩ := append_sep (hsp k) (hsp k') h
  have h3 := List.append_cancel_left h2
  exact ⟨hd _ _ (List.reverse_injective h3), kind_debug_injective (List.reverse_injective h1)⟩

end Bnf.E
