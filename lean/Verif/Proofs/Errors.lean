import Verif.Proofs.ErrorsRefine
import Verif.Proofs.TextParse
import Verif.Spec.Errors

/-!
# The payload of parse errors: terms and lists of alternatives
-/

set_option autoImplicit false

namespace Bnf
open Bnf.Spec

theorem tight_iff_settled {s : Str} : Tight s ↔ Settled s := by
  constructor
  · intro h r hl
    cases hl with
    | nil => rfl
    | space hc _ => have := (h _ _ rfl).1; rw [this] at hc; cases hc
    | comment _ _ _ => exact absurd rfl (h _ _ rfl).2
    | lastComment _ => exact absurd rfl (h _ _ rfl).2
  · intro h
    have := h _ (layout_skipM s)
    rw [← this]
    exact skipM_tight false s

theorem lacks_iff_tag {t s : Str} : Lacks t s ↔ Nom.tag t s = .err := by
  constructor
  · intro h
    cases h' : Nom.tag t s with
    | fuel => exact absurd h' (Nom.tag_no_fuel t s)
    | err => rfl
    | ok r v => exact absurd (Nom.tag_ok.mp h') (h r)
  · rintro h r rfl
    rw [Nom.tag_append] at h
    cases h

theorem lacks_one {c : Char} {s : Str} : Lacks [c] s ↔ ∀ cs, s ≠ c :: cs := Iff.rfl

theorem layout_settled (s : Str) : Layout s (skipM false s) ∧ Settled (skipM false s) :=
  ⟨layout_skipM s, tight_iff_settled.mp (skipM_tight false s)⟩

theorem settled_unique {s r r' : Str} (h : Layout s r) (hr : Settled r) (h' : Layout s r') (hr' : Settled r') : r = r' := by
  rw [layout_eq h (tight_iff_settled.mpr hr), layout_eq h' (tight_iff_settled.mpr hr')]

namespace E
variable {α β : Type}

theorem erase_ok {x : Res α} {r v} : x.erase = .ok r v ↔ x = .ok r v := by cases x <;> simp [Res.erase]
theorem erase_err {x : Res α} : x.erase = .err ↔ ∃ i k, x = .err i k := by cases x <;> simp [Res.erase]
theorem erase_fuel {x : Res α} : x.erase = .fuel ↔ x = .fuel := by cases x <;> simp [Res.erase]

theorem Refines.ok {p : P α} {q : Bnf.P α} (h : Refines p q) {s r v} : p s = .ok r v ↔ q s = .ok r v := by
  rw [← h s, erase_ok]
theorem Refines.err {p : P α} {q : Bnf.P α} (h : Refines p q) {s} : (∃ i k, p s = .err i k) ↔ q s = .err := by
  rw [← h s, erase_err]
theorem Refines.fuel {p : P α} {q : Bnf.P α} (h : Refines p q) {s} : p s = .fuel ↔ q s = .fuel := by
  rw [← h s, erase_fuel]

@[simp] theorem andThen_of_ok {r v} (f : Str → α → Res β) : (Res.ok r v).andThen f = f r v := rfl
@[simp] theorem andThen_of_err {i k} (f : Str → α → Res β) : (Res.err i k).andThen f = .err i k := rfl

theorem andThen_err {x : Res α} {f : Str → α → Res β} {i k} :
    x.andThen f = .err i k ↔ x = .err i k ∨ ∃ r v, x = .ok r v ∧ f r v = .err i k := by
  cases x <;> simp [Res.andThen]

theorem ws_eq (s : Str) : whitespacePlusComments s = .ok (skipM false s) () := refines_ws.ok.mpr (Bnf.ws_eq s)

theorem ws_settled {s r : Str} (h : Layout s r) (hr : Settled r) : whitespacePlusComments s = .ok r () := by
  rw [ws_eq, layout_eq h (tight_iff_settled.mpr hr)]

theorem char_err {c : Char} {s i k} : char c s = .err i k ↔ Lacks [c] s ∧ i = s ∧ k = .char := by
  rw [lacks_one]
  cases s with
  | nil => simp [char, eq_comm]
  | cons d r =>
    simp only [char]
    split
    · next h => subst h; simp
    · next h =>
      simp only [Res.err.injEq, ne_eq, List.cons.injEq, not_and]
      constructor
      · rintro ⟨rfl, rfl⟩; exact ⟨fun _ h' => absurd h' h, rfl, rfl⟩
      · rintro ⟨_, rfl, rfl⟩; exact ⟨rfl, rfl⟩

theorem char_ok {c : Char} {s r d} : char c s = .ok r d ↔ s = c :: r ∧ d = c := (refines_char c).ok.trans Nom.char_ok

theorem tag_err {t s : Str} {i k} : tag t s = .err i k ↔ Lacks t s ∧ i = s ∧ k = .tag := by
  rw [lacks_iff_tag]
  simp only [tag]
  cases h : Nom.tag t s with
  | fuel => exact absurd h (Nom.tag_no_fuel t s)
  | err => simp [eq_comm]
  | ok r v => simp

theorem tag_ok {t s r : Str} {v} : tag t s = .ok r v ↔ s = t ++ r := (refines_tag t).ok.trans Nom.tag_ok

theorem alt_err {a b : P α} {s i k} : alt a b s = .err i k ↔ (∃ i' k', a s = .err i' k') ∧ b s = .err i k := by
  simp only [alt]
  cases a s <;> simp

theorem not_ok {a : P α} {s r v} : not a s = .ok r v ↔ (∃ i k, a s = .err i k) ∧ r = s := by
  simp only [not]
  cases a s <;> simp [eq_comm]

theorem not_err {a : P α} {s i k} : not a s = .err i k ↔ (∃ r v, a s = .ok r v) ∧ i = s ∧ k = .not := by
  simp only [not]
  cases a s <;> simp [eq_comm]

/-! ## Terms -/

variable {F : Format}

theorem term_ok (hF : F.Regular) {n s r t} (hn : s.length < n) :
    parsedTerm F n s = .ok r t ↔ Syn F (.term t) s r ∧ Settled r := by
  rw [(refines_parsedTerm F n).ok, ← tight_iff_settled]
  exact ⟨fun h => Bnf.parsedTerm_sound hF h, fun ⟨h, hr⟩ => (syn_reads hF h).1 hr n hn⟩

theorem term_err (hF : F.Regular) {n s} (hn : s.length < n) :
    (∃ i k, parsedTerm F n s = .err i k) ↔ ∀ t r, ¬ Syn F (.term t) s r := by
  constructor
  · rintro ⟨i, k, h⟩ t r hs
    obtain ⟨h1, h2⟩ := layout_settled r
    rw [(term_ok hF hn).mpr ⟨syn_layout hs h1, h2⟩] at h
    cases h
  · intro h
    cases h' : parsedTerm F n s with
    | fuel => exact absurd ((refines_parsedTerm F n).fuel.mp h') (parsedTerm_no_fuel hF hn)
    | err i k => exact ⟨i, k, rfl⟩
    | ok r t => exact absurd ((term_ok hF hn).mp h').1 (h t r)

/-- The parser for the terms of an alternative. -/
abbrev itemP (F : Format) (n : Nat) : P ParsedTerm := terminated (parsedTerm F n) (not (tag F.productionSeparator))

theorem refines_itemP (n : Nat) : Refines (itemP F n) (Bnf.itemP F n) :=
  (refines_parsedTerm F n).terminated (refines_tag _).not

theorem item_ok (hF : F.Regular) {n s r t} (hn : s.length < n) :
    itemP F n s = .ok r t ↔ Syn F (.term t) s r ∧ Settled r ∧ Lacks F.productionSeparator r := by
  rw [refines_itemP n |>.ok, Nom.terminated_not_ok, ← (refines_parsedTerm F n).ok, term_ok hF hn, lacks_iff_tag, and_assoc]

theorem item_err (hF : F.Regular) {n s i k} (hn : s.length < n) :
    itemP F n s = .err i k ↔ parsedTerm F n s = .err i k ∨
      ∃ t, Syn F (.term t) s i ∧ Settled i ∧ ¬ Lacks F.productionSeparator i ∧ k = .not := by
  simp only [itemP, terminated, andThen_err, not_err, term_ok hF hn, tag_ok]
  refine or_congr Iff.rfl ⟨?_, ?_⟩
  · rintro ⟨r, t, ⟨h1, h2⟩, (⟨⟨r', _, h3⟩, rfl, rfl⟩ | ⟨_, _, _, h⟩)⟩
    · exact ⟨t, h1, h2, fun h => h _ h3, rfl⟩
    · cases h
  · rintro ⟨t, h1, h2, h3, rfl⟩
    simp only [Lacks, ne_eq, not_forall, not_not] at h3
    obtain ⟨r', h3⟩ := h3
    exact ⟨i, t, ⟨h1, h2⟩, .inl ⟨⟨r', (), h3⟩, rfl, rfl⟩⟩

theorem item_length (hF : F.Regular) {n s r t} (h : itemP F n s = .ok r t) : r.length < s.length ∧ byteLen r < byteLen s := by
  have h' := (Nom.terminated_not_ok.mp ((refines_itemP n).ok.mp h)).1
  obtain ⟨⟨v, hv⟩, hlt⟩ := (Bnf.parsedTerm_sound hF h').1.suffix
  exact ⟨hlt, Nom.byteLen_lt_of_suffix v hv hlt⟩

/-! ## Alternatives -/

theorem manyLoop_not_err {p : P α} (hp : ∀ s r v, p s = .ok r v → byteLen r < byteLen s) {n s acc i k} :
    manyLoop p n s acc ≠ .err i k := by
  induction n generalizing s acc with
  | zero => simp [manyLoop]
  | succ n ih =>
    rw [manyLoop]
    split
    · simp
    · simp
    · next r v h =>
      have := hp _ _ _ h
      rw [if_neg (by omega)]
      exact ih

theorem many1_err {p : P α} (hp : ∀ s r v, p s = .ok r v → byteLen r < byteLen s) {n s i k} :
    many1 n p s = .err i k ↔ p s = .err i k := by
  rw [many1, andThen_err]
  constructor
  · rintro (h | ⟨r, v, _, h⟩)
    · exact h
    · exact absurd h (manyLoop_not_err hp)
  · exact .inl

/-- The end of an alternative. -/
structure TermsEnd (F : Format) (r : Str) : Prop where
  settled : Settled r
  noSeparator : Lacks F.productionSeparator r
  noTerm : ∀ t r', Syn F (.term t) r r' → Settled r' → ¬ Lacks F.productionSeparator r'

theorem termsEnd_item (hF : F.Regular) {n r} (hn : r.length < n) (h : ∀ t r', Syn F (.term t) r r' → Settled r' →
    ¬ Lacks F.productionSeparator r') : Bnf.itemP F n r = .err := by
  rw [← (refines_itemP n).err]
  cases h' : itemP F n r with
  | err i k => exact ⟨i, k, rfl⟩
  | fuel => exact absurd ((refines_itemP n).fuel.mp h') (Nom.terminated_not_no_fuel (parsedTerm_no_fuel hF hn) (Nom.tag_no_fuel _))
  | ok r' t =>
    obtain ⟨h1, h2, h3⟩ := (item_ok hF hn).mp h'
    exact absurd h3 (h t r' h1 h2)

theorem item_termsEnd (hF : F.Regular) {n r} (hn : r.length < n) (h : Bnf.itemP F n r = .err) : ∀ t r', Syn F (.term t) r r' →
    Settled r' → ¬ Lacks F.productionSeparator r' := by
  intro t r' h1 h2 h3
  rw [(refines_itemP n).ok.mp ((item_ok hF hn).mpr ⟨h1, h2, h3⟩)] at h
  cases h

theorem terms_chain (hF : F.Regular) {it s r} (h : Syn F it s r) : ∀ {e}, it = .terms e → Settled r → Lacks F.productionSeparator r →
    ∀ n, s.length < n → ParseChain (fun a s r => Bnf.itemP F n s = .ok r a ∧ byteLen r < byteLen s ∧ r.length < s.length) e s r := by
  induction h with
  | terminal _ _ => intro e h; cases h
  | nonterminal _ _ => intro e h; cases h
  | group _ _ _ => intro e h; cases h
  | optional _ _ _ => intro e h; cases h
  | lastAlt _ _ => intro e h; cases h
  | nextAlt _ _ _ _ _ => intro e h; cases h
  | one h _ =>
    intro e he hr hl n hn
    injection he with he
    subst he
    obtain ⟨⟨v, hv⟩, hlt⟩ := h.suffix
    exact .cons ⟨(refines_itemP n).ok.mp ((item_ok hF hn).mpr ⟨h, hr, hl⟩), Nom.byteLen_lt_of_suffix v hv hlt, hlt⟩ .nil
  | @more t ts s s' r h h2 _ ih2 =>
    intro e he hr hl n hn
    injection he with he
    subst he
    obtain ⟨⟨v, hv⟩, hlt⟩ := h.suffix
    have ht := syn_tight hF h2
    refine .cons ⟨(refines_itemP n).ok.mp ((item_ok hF hn).mpr ⟨h, tight_iff_settled.mp ht, ?_⟩),
      Nom.byteLen_lt_of_suffix v hv hlt, hlt⟩ (ih2 rfl hr hl n (by omega))
    rw [lacks_iff_tag]
    obtain ⟨c, cs, rfl, hc⟩ := h2.start
    exact tag_err_starts hF hc cs

theorem chain_last {R : α → Str → Str → Prop} {l s r} (h : ParseChain R l s r) (hl : l ≠ []) : ∃ a s', R a s' r := by
  induction h with
  | nil => exact absurd rfl hl
  | @cons a l s s' r h1 h2 ih =>
    cases l with
    | nil => cases h2; exact ⟨a, s, h1⟩
    | cons b l => exact ih (by simp)

theorem terms_ok (hF : F.Regular) {n m s r e} (hn : s.length < n) (hm : s.length < m + 1) :
    many1 m (itemP F n) s = .ok r e ↔ Syn F (.terms e) s r ∧ TermsEnd F r := by
  rw [((refines_itemP n).many1 m).ok]
  constructor
  · intro h
    obtain ⟨h1, h2, h3⟩ := Nom.many1_sound h
    have hs : Syn F (.terms e) s r :=
      chain_terms (h2.imp fun t s r ht => (Bnf.parsedTerm_sound hF (Nom.terminated_not_ok.mp ht).1).1) h1
    obtain ⟨t, s', h4⟩ := chain_last h2 h1
    obtain ⟨h5, h6⟩ := Nom.terminated_not_ok.mp h4
    have := hs.suffix.2
    exact ⟨hs, tight_iff_settled.mp (Bnf.parsedTerm_sound hF h5).2, lacks_iff_tag.mpr h6, item_termsEnd hF (by omega) h3⟩
  · rintro ⟨h1, h2, h3, h4⟩
    have := h1.suffix.2
    exact Nom.many1_complete (terms_chain hF h1 rfl h2 h3 n hn) (h1.chain rfl) (termsEnd_item hF (by omega) h4) hm

theorem terms_err (hF : F.Regular) {n m s i k} : many1 m (itemP F n) s = .err i k ↔ itemP F n s = .err i k :=
  many1_err fun _ _ _ h => (item_length hF h).2

theorem next_ok {s r v} : expressionNext F s = .ok r v ↔
    ∃ s1, s = F.alternativeSeparator :: s1 ∧ Layout s1 r ∧ Settled r := by
  rw [(refines_expressionNext F).ok]
  constructor
  · intro h
    obtain ⟨s1, h1, h2, h3⟩ := expressionNext_ok h
    exact ⟨s1, h1, h2, tight_iff_settled.mp h3⟩
  · rintro ⟨s1, rfl, h1, h2⟩
    simp only [Bnf.expressionNext, Nom.char_cons, Bnf.Res.andThen_of_ok, ws_of_layout h1 (tight_iff_settled.mpr h2)]

theorem next_err {s} : (∃ i k, expressionNext F s = .err i k) ↔ Lacks [F.alternativeSeparator] s := by
  simp only [expressionNext, andThen_err, ws_eq, andThen_of_ok, char_err]
  constructor
  · rintro ⟨i, k, ⟨h, _⟩ | ⟨_, _, _, h⟩⟩
    · exact h
    · cases h
  · exact fun h => ⟨s, .char, .inl ⟨h, rfl, rfl⟩⟩

theorem next_no_fuel (s : Str) : expressionNext F s ≠ .fuel := fun h =>
  expressionNext_no_fuel s ((refines_expressionNext F).fuel.mp h)

theorem termsEnd_altSep (hF : F.Regular) (s : Str) : TermsEnd F (F.alternativeSeparator :: s) := by
  have hfa : Follow F (F.alternativeSeparator :: s) := .inr (.inl ⟨_, _, rfl, .inl rfl⟩)
  exact ⟨tight_iff_settled.mp (follow_tight hF hfa), lacks_iff_tag.mpr (tag_err_follow hF hfa),
    item_termsEnd hF (n := (F.alternativeSeparator :: s).length + 1) (by omega) (item_err_follow hF hfa (by omega))⟩

theorem stop_termsEnd {r} (h : Stop F r) : TermsEnd F r := ⟨h.settled, h.noSeparator, h.noTerm⟩

theorem xt_ok (hF : F.Regular) {n it s r as} (h : Syn F it s r) (hi : it = .alts as) (hr : Stop F r) (hn : s.length < n) :
    ∀ {m acc}, s.length < m → xtLoop (many1 n (itemP F n)) (expressionNext F) m s acc = .ok r (acc ++ as) := by
  induction h generalizing as with
  | terminal _ _ => cases hi
  | nonterminal _ _ => cases hi
  | group _ _ _ => cases hi
  | optional _ _ _ => cases hi
  | one _ _ => cases hi
  | more _ _ _ _ => cases hi
  | lastAlt h _ =>
    injection hi with hi
    subst hi
    intro m acc hm
    obtain ⟨m, rfl⟩ : ∃ m', m = m' + 1 := ⟨m - 1, by omega⟩
    rw [xtLoop, (terms_ok hF hn (by omega)).mpr ⟨h, stop_termsEnd hr⟩]
    obtain ⟨i, k, he⟩ := next_err.mpr hr.noAlternative
    simp only [he]
  | nextAlt h hl h2 _ ih =>
    injection hi with hi
    subst hi
    intro m acc hm
    obtain ⟨m, rfl⟩ : ∃ m', m = m' + 1 := ⟨m - 1, by omega⟩
    have h3 := h.suffix.2
    have h4 := hl.length
    simp only [List.length_cons] at h3
    rw [xtLoop, (terms_ok hF hn (by omega)).mpr ⟨h, termsEnd_altSep hF _⟩]
    simp only [(next_ok (v := ())).mpr ⟨_, rfl, hl, tight_iff_settled.mp (syn_tight hF h2)⟩]
    rw [ih rfl hr (by omega) (by omega)]
    simp

theorem xt_sound (hF : F.Regular) {n m s acc r l} (hn : s.length < n)
    (h : xtLoop (many1 n (itemP F n)) (expressionNext F) m s acc = .ok r l) :
    ∃ as, l = acc ++ as ∧ Syn F (.alts as) s r ∧ Stop F r := by
  induction m generalizing s acc with
  | zero => simp [xtLoop] at h
  | succ m ih =>
    rw [xtLoop] at h
    split at h
    · cases h
    · cases h
    · next r1 e h1 =>
      obtain ⟨h2, h3⟩ := (terms_ok hF hn (by omega)).mp h1
      have h5 := h2.suffix.2
      split at h
      · cases h
      · next i k h4 =>
        injection h with ha hb
        subst ha hb
        exact ⟨[e], rfl, .lastAlt h2, h3.settled, next_err.mp ⟨i, k, h4⟩, h3.noSeparator, h3.noTerm⟩
      · next r2 _ h4 =>
        obtain ⟨s1, rfl, hl, hs⟩ := next_ok.mp h4
        have := hl.length
        simp only [List.length_cons] at h5
        obtain ⟨as, rfl, h6, h7⟩ := ih (by omega) h
        exact ⟨e :: as, by simp, .nextAlt h2 hl h6, h7⟩

theorem alts_ok (hF : F.Regular) {n s r as} (hn : s.length < n) :
    parsedAltsWith F n (parsedTerm F n) s = .ok r as ↔ Syn F (.alts as) s r ∧ Stop F r := by
  constructor
  · intro h
    obtain ⟨as', h1, h2, h3⟩ := xt_sound hF hn h
    rw [List.nil_append] at h1
    subst h1
    exact ⟨h2, h3⟩
  · rintro ⟨h1, h2⟩
    exact xt_ok hF h1 rfl h2 hn hn

theorem optional_err (hF : F.Regular) {n s i k} (hn : s.length < n + 1) :
    parsedOptionalGroup F n (parsedTerm F n) s = .err i k ↔ (Lacks ['['] s ∧ i = s ∧ k = .char) ∨
      ∃ t, s = '[' :: t ∧ (parsedAltsWith F n (parsedTerm F n) t = .err i k ∨
        ∃ as, Syn F (.alts as) t i ∧ Stop F i ∧ Lacks [']'] i ∧ k = .char) := by
  simp only [parsedOptionalGroup, delimited, andThen_err, ws_eq, andThen_of_ok, char_err, char_ok]
  constructor
  · rintro ((h | ⟨t, _, ⟨rfl, rfl⟩, h | ⟨r, as, h1, ⟨h2, rfl, rfl⟩ | ⟨_, _, _, h⟩⟩⟩) | ⟨_, _, _, h⟩)
    · exact .inl h
    · exact .inr ⟨t, rfl, .inl h⟩
    · simp only [List.length_cons] at hn
      obtain ⟨h3, h4⟩ := (alts_ok hF (by omega)).mp h1
      exact .inr ⟨t, rfl, .inr ⟨as, h3, h4, h2, rfl⟩⟩
    · cases h
    · cases h
  · rintro (h | ⟨t, rfl, h | ⟨as, h1, h2, h3, rfl⟩⟩)
    · exact .inl (.inl h)
    · exact .inl (.inr ⟨t, '[', ⟨rfl, rfl⟩, .inl h⟩)
    · simp only [List.length_cons] at hn
      exact .inl (.inr ⟨t, '[', ⟨rfl, rfl⟩, .inr ⟨i, as, (alts_ok hF (by omega)).mpr ⟨h1, h2⟩, .inl ⟨h3, rfl, rfl⟩⟩⟩)

theorem termP_err {n s i k} (h : parsedTerm F (n + 1) s = .err i k) : parsedOptionalGroup F n (parsedTerm F n) s = .err i k := by
  rw [parsedTerm] at h
  exact (alt_err.mp (alt_err.mp (alt_err.mp h).2).2).2

theorem altsFault_of_term (hF : F.Regular) {n : Nat} (ih : ∀ {s i k}, s.length < n → parsedAltsWith F n (parsedTerm F n) s = .err i k →
    AltsFault F s i k) {s i k} (hn : s.length < n + 1) (h : parsedTerm F (n + 1) s = .err i k) : AltsFault F s i k := by
  have hno := (term_err hF hn).mp ⟨i, k, h⟩
  rcases (optional_err hF hn).mp (termP_err h) with ⟨h1, rfl, rfl⟩ | ⟨t, rfl, h1 | ⟨as, h1, h2, h3, rfl⟩⟩
  · exact .noTerm hno h1
  · simp only [List.length_cons] at hn
    exact .inside (ih (by omega) h1)
  · exact .unclosed h1 h2 h3

theorem altsFault_of_item (hF : F.Regular) {n : Nat} (ih : ∀ {s i k}, s.length < n → parsedTerm F n s = .err i k →
    AltsFault F s i k) {m s acc i k} (hn : s.length < n)
    (h : xtLoop (many1 n (itemP F n)) (expressionNext F) m s acc = .err i k) : AltsFault F s i k := by
  induction m generalizing s acc with
  | zero => simp [xtLoop] at h
  | succ m ihm =>
    rw [xtLoop] at h
    split at h
    · cases h
    · next i' k' h1 =>
      injection h with ha hb
      subst ha hb
      rcases (item_err hF hn).mp ((terms_err hF).mp h1) with h2 | ⟨t, h2, _, h4, rfl⟩
      · exact ih hn h2
      · simp only [Lacks, ne_eq, not_forall, not_not] at h4
        obtain ⟨r, rfl⟩ := h4
        exact .separator h2
    · next r e h1 =>
      obtain ⟨h2, h3⟩ := (terms_ok hF hn (by omega)).mp h1
      have h5 := h2.suffix.2
      split at h
      · cases h
      · cases h
      · next r2 _ h4 =>
        obtain ⟨s1, rfl, hl, hs⟩ := next_ok.mp h4
        have := hl.length
        simp only [List.length_cons] at h5
        exact .later h2 hl hs (ihm (by omega) h)

theorem altsFault_sound (hF : F.Regular) {n : Nat} : (∀ {s i k}, s.length < n → parsedTerm F n s = .err i k → AltsFault F s i k) ∧
    ∀ {s i k}, s.length < n → parsedAltsWith F n (parsedTerm F n) s = .err i k → AltsFault F s i k := by
  induction n with
  | zero => exact ⟨fun h => by omega, fun h => by omega⟩
  | succ n ih =>
    have h1 : ∀ {s i k}, s.length < n + 1 → parsedTerm F (n + 1) s = .err i k → AltsFault F s i k := fun hn h =>
      altsFault_of_term hF ih.2 hn h
    exact ⟨h1, fun hn h => altsFault_of_item hF h1 hn h⟩

theorem bracket_fails (hF : F.Regular) (n : Nat) (s : Str) {i k} (h : parsedOptionalGroup F n (parsedTerm F n) ('[' :: s) = .err i k) :
    parsedTerm F (n + 1) ('[' :: s) = .err i k := by
  have hne : ¬ NameStart F '[' := fun hc => by have := (hF.nameStart _ hc).2; simp at this
  rw [parsedTerm]
  refine alt_err.mpr ⟨?_, alt_err.mpr ⟨?_, alt_err.mpr ⟨?_, h⟩⟩⟩
  · rw [refines_parsedTerminal.err]
    simp only [Bnf.parsedTerminal]; rw [quotedText_err (by decide) (by decide)]; rfl
  · rw [(refines_parsedNonterminal F).err]
    simp only [Bnf.parsedNonterminal, nameText_err hne, Bnf.Res.andThen_of_err]
  · rw [(refines_parsedAnonymousGroup F n (refines_parsedTerm F n)).err]
    simp only [Bnf.parsedAnonymousGroup, Nom.delimited, Nom.char_ne (show '[' ≠ '(' by decide), Bnf.Res.andThen_of_err]

theorem xt_of_item {n m s acc i k} (hF : F.Regular) (hm : 0 < m) (h : itemP F n s = .err i k) :
    xtLoop (many1 n (itemP F n)) (expressionNext F) m s acc = .err i k := by
  obtain ⟨m, rfl⟩ : ∃ m', m = m' + 1 := ⟨m - 1, by omega⟩
  rw [xtLoop, (terms_err hF).mpr h]

theorem altsFault_complete (hF : F.Regular) {s i k} (h : AltsFault F s i k) : ∀ {n m acc}, s.length < n → s.length < m →
    xtLoop (many1 n (itemP F n)) (expressionNext F) m s acc = .err i k := by
  induction h with
  | @noTerm s h1 h2 =>
    intro n m acc hn hm
    refine xt_of_item hF (by omega) ((item_err hF hn).mpr (.inl ?_))
    obtain ⟨n, rfl⟩ : ∃ n', n = n' + 1 := ⟨n - 1, by omega⟩
    obtain ⟨i, k, h⟩ := (term_err hF hn).mpr h1
    have h' := termP_err h
    rcases (optional_err hF hn).mp h' with ⟨_, rfl, rfl⟩ | ⟨t, rfl, _⟩
    · exact h
    · exact absurd rfl (h2 t)
  | @inside s i k h ih =>
    intro n m acc hn hm
    refine xt_of_item hF (by omega) ((item_err hF hn).mpr (.inl ?_))
    obtain ⟨n, rfl⟩ : ∃ n', n = n' + 1 := ⟨n - 1, by omega⟩
    refine bracket_fails hF n s ((optional_err hF hn).mpr (.inr ⟨s, rfl, .inl ?_⟩))
    simp only [List.length_cons] at hn
    exact ih (by omega) (by omega)
  | @unclosed s as r h1 h2 h3 =>
    intro n m acc hn hm
    refine xt_of_item hF (by omega) ((item_err hF hn).mpr (.inl ?_))
    obtain ⟨n, rfl⟩ : ∃ n', n = n' + 1 := ⟨n - 1, by omega⟩
    exact bracket_fails hF n s ((optional_err hF hn).mpr (.inr ⟨s, rfl, .inr ⟨as, h1, h2, h3, rfl⟩⟩))
  | @separator s t r h =>
    intro n m acc hn hm
    exact xt_of_item hF (by omega) ((item_err hF hn).mpr (.inr ⟨t, h, tight_iff_settled.mp (sep_tight hF r),
      fun hl => hl r rfl, rfl⟩))
  | @later e s s1 s2 i k h hl hs _ ih =>
    intro n m acc hn hm
    obtain ⟨m, rfl⟩ : ∃ m', m = m' + 1 := ⟨m - 1, by omega⟩
    have h3 := h.suffix.2
    have h4 := hl.length
    simp only [List.length_cons] at h3
    rw [xtLoop, (terms_ok hF hn (by omega)).mpr ⟨h, termsEnd_altSep hF _⟩]
    simp only [(next_ok (v := ())).mpr ⟨_, rfl, hl, hs⟩]
    exact ih (by omega) (by omega)

theorem alts_err (hF : F.Regular) {n s i k} (hn : s.length < n) :
    parsedAltsWith F n (parsedTerm F n) s = .err i k ↔ AltsFault F s i k :=
  ⟨(altsFault_sound hF).2 hn, fun h => altsFault_complete hF h hn hn⟩

end E
end Bnf
