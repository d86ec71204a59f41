import Verif.Model.Cost
import Verif.Proofs.TextParse

/-!
# The work of reading a grammar text is linear
-/

set_option autoImplicit false

namespace Bnf.Timed
open Bnf Bnf.Spec

variable {α β γ : Type} {F : Format}

/-! ## Results -/

theorem nameText_run (F : Format) : (nameText F).run = Bnf.nameText F := by
  funext s
  unfold nameText Bnf.nameText
  cases h : F.nonterminalDelimiter with
  | some p => obtain ⟨a, b⟩ := p; rfl
  | none => rfl

theorem nonterminal_run (F : Format) : (nonterminal F).run = Bnf.nonterminal F := by
  funext s
  simp only [nonterminal, bind, nameText_run]
  rfl

theorem prodLhs_run (F : Format) : (prodLhs F).run = Bnf.prodLhs F := by
  funext s
  simp only [prodLhs, bind, nonterminal_run]
  rfl

theorem term_run (F : Format) : (term F).run = Bnf.term F := by
  simp only [term, alt, nonterminal_run]
  rfl

theorem expression_run (F : Format) (n : Nat) : (expression F n).run = Bnf.expression F n := by
  funext s
  simp only [expression, terminated, many1, bind, term_run]
  rfl

theorem prodRhs_run (F : Format) (n : Nat) : (prodRhs F n).run = Bnf.prodRhs F n := by
  simp only [prodRhs, xtList, expression_run]
  rfl

theorem productionEnd_run (F : Format) : (productionEnd F).run = Bnf.productionEnd F := by
  funext s
  unfold productionEnd Bnf.productionEnd
  cases h : F.productionStartChar with
  | some p => rfl
  | none => simp only [alt, recognize, peek, prodLhs_run]; rfl

theorem production_run (F : Format) (n : Nat) : (production F n).run = Bnf.production F n := by
  funext s
  simp only [production, bind, prodLhs_run, prodRhs_run, productionEnd_run]
  rfl

theorem plainGrammar_run (F : Format) (n : Nat) : (plainGrammar F n).run = Bnf.plainGrammar F n := by
  funext s
  simp only [plainGrammar, many1, preceded, bind, production_run]
  rfl

theorem parsedNonterminal_run (F : Format) : (parsedNonterminal F).run = Bnf.parsedNonterminal F := by
  funext s
  simp only [parsedNonterminal, bind, nameText_run]
  rfl

theorem parsedTerm_run (F : Format) (n : Nat) : (parsedTerm F n).run = Bnf.parsedTerm F n := by
  induction n with
  | zero => rfl
  | succ n ih =>
    simp only [parsedTerm, Bnf.parsedTerm, deeper, alt, parsedNonterminal_run, parsedAnonymousGroup, parsedOptionalGroup, parsedAltsWith,
      parsedExpressionWith, terminated, many1, xtList, delimited, bind, ih]
    rfl

theorem parsedProdLhs_run (F : Format) : (parsedProdLhs F).run = Bnf.parsedProdLhs F := by
  funext s
  simp only [parsedProdLhs, bind, nameText_run]
  rfl

theorem parsedProdRhs_run (F : Format) (n : Nat) : (parsedProdRhs F n).run = Bnf.parsedProdRhs F n := by
  simp only [parsedProdRhs, parsedAltsWith, parsedExpressionWith, terminated, many1, xtList, bind, parsedTerm_run]
  rfl

theorem parsedProduction_run (F : Format) (n : Nat) : (parsedProduction F n).run = Bnf.parsedProduction F n := by
  funext s
  simp only [parsedProduction, bind, parsedProdLhs_run, parsedProdRhs_run, alt, recognize, peek]
  rfl

theorem parsedGrammar_run (F : Format) (n : Nat) : (parsedGrammar F n).run = Bnf.parsedGrammar F n := by
  funext s
  simp only [parsedGrammar, many1, preceded, bind, parsedProduction_run]
  rfl

theorem parsedGrammarComplete_run (F : Format) (n : Nat) : (parsedGrammarComplete F n).run = Bnf.parsedGrammarComplete F n := by
  simp only [parsedGrammarComplete, allConsuming, parsedGrammar_run]
  rfl

/-! ## Tokens -/

/-- At most three characters looked at for each one read, and `b` more. -/
structure Lin (p : Timed α) (b : Nat) : Prop where
  ok : ∀ {s r v}, p.run s = .ok r v → r.length ≤ s.length ∧ p.cost s + 3 * r.length ≤ 3 * s.length + b
  all : ∀ s, p.cost s ≤ 3 * s.length + b

theorem lin_pure (v : α) : Lin (pure v) 0 where
  ok h := by injection h with h; subst h; simp [pure]
  all s := by simp [pure]

theorem lin_bind {a : Timed α} {f : α → Timed β} {b c : Nat} (ha : Lin a b) (hf : ∀ v, Lin (f v) c) : Lin (bind a f) (b + c) where
  ok {s r v} h := by
    simp only [bind] at h ⊢
    cases hr : a.run s with
    | fuel => rw [hr] at h; cases h
    | err => rw [hr] at h; cases h
    | ok r' v' =>
      rw [hr] at h
      have h1 := ha.ok hr
      have h2 := (hf v').ok h
      simp only
      omega
  all s := by
    simp only [bind]
    cases hr : a.run s with
    | fuel => have := ha.all s; simp only; omega
    | err => have := ha.all s; simp only; omega
    | ok r' v' =>
      have h1 := ha.ok hr
      have h2 := (hf v').all r'
      simp only
      omega

theorem lin_mono {p : Timed α} {b c : Nat} (h : Lin p b) (hbc : b ≤ c) : Lin p c where
  ok h' := by have := h.ok h'; omega
  all s := by have := h.all s; omega

theorem lin_char (c : Char) : Lin (char c) 1 where
  ok {s r v} h := by
    obtain ⟨rfl, rfl⟩ := Nom.char_ok.mp h
    simp [char, prim]; omega
  all s := by simp [char, prim]

theorem lin_tag {t : Str} (ht : t.length ≤ 3) : Lin (tag t) 3 where
  ok {s r v} h := by
    have := Nom.tag_ok.mp h
    subst this
    simp [tag, prim]; omega
  all s := by simp [tag, prim]; omega

theorem lin_opt_char (c : Char) : Lin (opt (char c)) 1 where
  ok {s r v} h := by
    have h0 : (opt (char c)).cost s = 1 := rfl
    rcases opt_char_ok (show Nom.opt (Nom.char c) s = .ok r v from h) with rfl | rfl
    · omega
    · simp only [List.length_cons]; omega
  all s := by simp [opt, char, prim]

theorem takeWhile_dropWhile_length (p : Char → Bool) (s : Str) : (s.takeWhile p).length + (s.dropWhile p).length = s.length := by
  rw [← List.length_append, List.takeWhile_append_dropWhile]

theorem lin_takeTill (f : Char → Bool) : Lin (takeTill f) 1 where
  ok {s r v} h := by
    injection h with h
    subst h
    have := takeWhile_dropWhile_length (fun c => !f c) s
    simp only [takeTill, prim]
    omega
  all s := by
    have := takeWhile_dropWhile_length (fun c => !f c) s
    simp only [takeTill, prim]
    omega

theorem lin_takeUntil (c : Char) : Lin (takeUntil c) 1 where
  ok {s r v} h := by
    have h : Nom.takeUntil c s = .ok r v := h
    unfold Nom.takeUntil at h
    split at h
    · injection h with h
      subst h
      have := takeWhile_dropWhile_length (fun d => decide (d ≠ c)) s
      simp only [takeUntil, prim]
      omega
    · cases h
  all s := by
    have := takeWhile_dropWhile_length (fun d => decide (d ≠ c)) s
    simp only [takeUntil, prim]
    omega

theorem wsCost_le : ∀ {n s}, s.length < n → wsCost n s + 3 * (skipM false s).length ≤ 3 * s.length + 2 := by
  intro n
  induction n with
  | zero => intro s h; omega
  | succ n ih =>
    intro s hn
    unfold wsCost
    simp only
    have hu := takeWhile_dropWhile_length isWhitespace s
    have hskip := skipM_dropWhile s
    by_cases hb : byteLen (s.dropWhile isWhitespace) = byteLen s
    · rw [if_pos hb]
      obtain ⟨u, hu'⟩ := dropWhile_suffix (p := isWhitespace) s
      have : u = [] := by
        apply byteLen_eq_of_suffix (r := s.dropWhile isWhitespace)
        rw [← hu']; exact hb
      subst this
      simp only [List.nil_append] at hu'
      rw [← hu'] at hu hskip ⊢
      cases s with
      | nil => simp [skipM]
      | cons c cs =>
        by_cases hc : c = ';'
        · subst hc
          simp only
          have hv := takeWhile_dropWhile_length (fun c => !(c == '\r' || c == '\n')) cs
          have hs : skipM false (';' :: cs) = skipM false (cs.dropWhile fun c => !(c == '\r' || c == '\n')) := by
            rw [skipM, if_neg (by rw [semi_not_ws]; simp), if_pos rfl, skipM_comment]
          rw [hs]
          cases hd : cs.dropWhile (fun c => !(c == '\r' || c == '\n')) with
          | nil =>
            rw [hd] at hv
            simp only [List.length_nil, List.length_cons, skipM] at hv hu ⊢
            omega
          | cons d ds =>
            rw [hd] at hv
            simp only [List.length_cons] at hv hu hn ⊢
            have := ih (s := d :: ds) (by simp only [List.length_cons]; omega)
            simp only [List.length_cons] at this
            omega
        · have h1 := skipM_length false (c :: cs)
          split
          · rename_i h; injection h with h; exact absurd h hc
          · omega
    · rw [if_neg hb]
      have hlt : (s.dropWhile isWhitespace).length < s.length := by
        rcases Nat.lt_or_ge (s.dropWhile isWhitespace).length s.length with h | h
        · exact h
        · exfalso
          apply hb
          have h0 : s.takeWhile isWhitespace = [] := List.length_eq_zero_iff.mp (by omega)
          conv => rhs; rw [← List.takeWhile_append_dropWhile (p := isWhitespace) (l := s), h0]
          rfl
      have := ih (s := s.dropWhile isWhitespace) (by omega)
      rw [hskip] at this
      omega

theorem lin_ws : Lin ws 2 where
  ok {s r v} h := by
    have h : whitespacePlusComments s = .ok r v := h
    rw [ws_eq] at h
    injection h with h
    subst h
    have := wsCost_le (n := s.length + 1) (s := s) (by omega)
    have := skipM_length false s
    simp only [ws, prim]
    omega
  all s := by
    have := wsCost_le (n := s.length + 1) (s := s) (by omega)
    simp only [ws, prim]
    omega

theorem ws_ok (s : Str) : ws.run s = .ok (skipM false s) () := ws_eq s

theorem ws_tight_cost {s : Str} (h : Tight s) : ws.cost s ≤ 2 := by
  have := wsCost_le (n := s.length + 1) (s := s) (by omega)
  rw [skipM_of_tight h] at this
  simp only [ws, prim]
  omega

theorem lin_delimited {a : Timed α} {b : Timed β} {c : Timed γ} {x y z : Nat} (ha : Lin a x) (hb : Lin b y) (hc : Lin c z) :
    Lin (delimited a b c) (x + (y + (z + 0))) :=
  lin_bind ha fun _ => lin_bind hb fun v => lin_bind hc fun _ => lin_pure v

theorem lin_nameText (F : Format) : Lin (nameText F) 3 := by
  unfold nameText
  cases h : F.nonterminalDelimiter with
  | some p =>
    obtain ⟨a, b⟩ := p
    exact lin_delimited (lin_char a) (lin_takeTill _) (lin_char b)
  | none =>
    constructor
    · intro s r v h
      simp only at h ⊢
      cases hr : Nom.satisfy F.isAlphabetic s with
      | fuel => rw [hr] at h; cases h
      | err => rw [hr] at h; cases h
      | ok r' v' =>
        rw [hr] at h
        have := (lin_takeTill fun c => isWhitespace c || c == ')' || c == ']').ok (s := s) h
        simp only
        omega
    · intro s
      simp only
      have := (lin_takeTill fun c => isWhitespace c || c == ')' || c == ']').all s
      split <;> omega

theorem alt_cost_err {a b : Timed α} {s : Str} (h : a.run s = .err) : (alt a b).cost s = a.cost s + b.cost s := by
  simp only [alt, h]

theorem alt_cost_ne {a b : Timed α} {s : Str} (h : a.run s ≠ .err) : (alt a b).cost s = a.cost s := by
  simp only [alt]
  cases hr : a.run s with
  | err => exact absurd hr h
  | _ => rfl

theorem delimited_char_err {c d : Char} {b : Timed β} {s : Str} (h : ∀ cs, s ≠ c :: cs) :
    (delimited (char c) b (char d)).run s = .err ∧ (delimited (char c) b (char d)).cost s = 1 := by
  have : Nom.char c s = .err := by
    cases s with
    | nil => rfl
    | cons x xs =>
      by_cases hx : x = c
      · subst hx; exact absurd rfl (h xs)
      · exact Nom.char_ne hx xs
  simp [delimited, bind, char, prim, this]

theorem lin_quotedText : Lin quotedText 4 := by
  have h1 : Lin (delimited (char '"') (takeUntil '"') (char '"')) 3 := lin_delimited (lin_char _) (lin_takeUntil _) (lin_char _)
  have h2 : Lin (delimited (char '\'') (takeUntil '\'') (char '\'')) 3 := lin_delimited (lin_char _) (lin_takeUntil _) (lin_char _)
  have hcase : ∀ s : Str, (∀ cs, s ≠ '"' :: cs) ∨ (∀ cs, s ≠ '\'' :: cs) := by
    intro s
    cases s with
    | nil => left; simp
    | cons c cs =>
      by_cases hc : c = '"'
      · subst hc; right; simp
      · left; simp [hc]
  constructor
  · intro s r v h
    have h : Nom.alt _ _ s = .ok r v := h
    rcases Nom.alt_ok.mp h with h | ⟨h, h'⟩
    · have := h1.ok h
      rw [quotedText, alt_cost_ne (by rw [h]; simp)]
      omega
    · have := h2.ok h'
      rw [quotedText, alt_cost_err h]
      rcases hcase s with hs | hs
      · rw [(delimited_char_err hs).2]; omega
      · rw [(delimited_char_err hs).1] at h'; cases h'
  · intro s
    by_cases h : (delimited (char '"') (takeUntil '"') (char '"')).run s = .err
    · rw [quotedText, alt_cost_err h]
      rcases hcase s with hs | hs
      · rw [(delimited_char_err hs).2]; have := h2.all s; omega
      · rw [(delimited_char_err hs).2]; have := h1.all s; omega
    · rw [quotedText, alt_cost_ne h]
      have := h1.all s; omega

theorem quotedText_stop {s : Str} (h : ∀ c cs, s = c :: cs → c ≠ '"' ∧ c ≠ '\'') : quotedText.run s = .err ∧ quotedText.cost s = 2 := by
  obtain ⟨h1, h2⟩ := delimited_char_err (c := '"') (d := '"') (b := takeUntil '"') (s := s) fun cs hs => (h _ _ hs).1 rfl
  obtain ⟨h3, h4⟩ := delimited_char_err (c := '\'') (d := '\'') (b := takeUntil '\'') (s := s) fun cs hs => (h _ _ hs).2 rfl
  refine ⟨?_, ?_⟩
  · show Nom.alt _ _ s = .err
    rw [Nom.alt_of_err h1, h3]
  · rw [quotedText, alt_cost_err h1, h2, h4]

theorem nameText_stop {s : Str} (h : ∀ c cs, s = c :: cs → ¬ NameStart F c) : (nameText F).run s = .err ∧ (nameText F).cost s = 1 := by
  unfold nameText
  cases hd : F.nonterminalDelimiter with
  | some p =>
    obtain ⟨a, b⟩ := p
    refine delimited_char_err fun cs hs => h _ _ hs ?_
    simp [NameStart, hd]
  | none =>
    have : Nom.satisfy F.isAlphabetic s = .err := by
      cases s with
      | nil => rfl
      | cons c cs =>
        have := h c cs rfl
        simp only [NameStart, hd] at this
        simp [Nom.satisfy, this]
    simp [this]

theorem bind_stop {a : Timed α} {f : α → Timed β} {s : Str} {k : Nat} (h : a.run s = .err ∧ a.cost s = k) :
    (bind a f).run s = .err ∧ (bind a f).cost s = k := by
  simp [bind, h.1, h.2]

theorem lin_then_ws {a : Timed α} {f : α → β} {b : Nat} (ha : Lin a b) : Lin (bind a fun v => bind ws fun _ => pure (f v)) (b + 2) :=
  lin_bind ha fun v => lin_mono (lin_bind lin_ws fun _ => lin_pure (f v)) (by omega)

/-- Terms, plain or parsed, without groups: a quoted text or a name, followed by layout. -/
theorem lin_simple (hF : F.Regular) {f g : Str → β} :
    Lin (alt (bind quotedText fun t => bind ws fun _ => pure (f t)) (bind (nameText F) fun t => bind ws fun _ => pure (g t))) 8 := by
  have h1 : Lin (bind quotedText fun t => bind ws fun _ => pure (f t)) 6 := lin_then_ws lin_quotedText
  have h2 : Lin (bind (nameText F) fun t => bind ws fun _ => pure (g t)) 5 := lin_then_ws (lin_nameText F)
  have hcase : ∀ s : Str, (∀ c cs, s = c :: cs → c ≠ '"' ∧ c ≠ '\'') ∨ (∀ c cs, s = c :: cs → ¬ NameStart F c) := by
    intro s
    cases s with
    | nil => left; simp
    | cons c cs =>
      by_cases hc : NameStart F c
      · left
        have := (hF.nameStart c hc).2
        intro d ds h
        injection h with h
        subst h
        constructor <;> (rintro rfl; simp at this)
      · right
        intro d ds h
        injection h with h
        subst h
        exact hc
  constructor
  · intro s r v h
    have h : Nom.alt _ _ s = .ok r v := h
    rcases Nom.alt_ok.mp h with h | ⟨h, h'⟩
    · have := h1.ok h
      rw [alt_cost_ne (by rw [h]; simp)]
      omega
    · have := h2.ok h'
      rw [alt_cost_err h]
      rcases hcase s with hs | hs
      · rw [(bind_stop (quotedText_stop hs)).2]; omega
      · rw [(bind_stop (nameText_stop hs)).1] at h'; cases h'
  · intro s
    by_cases h : (bind quotedText fun t => bind ws fun _ => pure (f t)).run s = .err
    · rw [alt_cost_err h]
      rcases hcase s with hs | hs
      · rw [(bind_stop (quotedText_stop hs)).2]; have := h2.all s; omega
      · rw [(bind_stop (nameText_stop hs)).2]; have := h1.all s; omega
    · rw [alt_cost_ne h]
      have := h1.all s; omega

/-! ## Terms, expressions and alternatives -/

/-- What is used of the parser for the elements of an expression: it pays at most 16 looks for each character it reads, and fails quickly where
no term can start. -/
structure Elem (F : Format) (p : Timed α) : Prop where
  ok : ∀ {s r v}, p.run s = .ok r v → r.length < s.length ∧ Tight r ∧ p.cost s + 16 * r.length ≤ 16 * s.length
  all : ∀ s, p.cost s ≤ 16 * s.length + 11
  stop : ∀ {s : Str}, (∀ c cs, s = c :: cs → ¬ Starts F c) → p.cost s ≤ 5

/-- What is used of the parser for expressions, whose elements are read by `q`: it has called `q` without success where it ends. -/
structure Seg (q : Timed β) (p : Timed α) : Prop where
  ok : ∀ {s r v}, p.run s = .ok r v → r.length < s.length ∧ Tight r ∧ p.cost s + 16 * r.length ≤ 16 * s.length + q.cost r
  all : ∀ s, p.cost s ≤ 16 * s.length + 11

theorem manyLoop_cost {p : Timed α} (hp : Elem F p) : ∀ n s, manyCost p n s ≤ 16 * s.length + 11 ∧
    ∀ acc r l, Tight s → Nom.manyLoop p.run n s acc = .ok r l → r.length ≤ s.length ∧ Tight r ∧
      manyCost p n s + 16 * r.length ≤ 16 * s.length + p.cost r := by
  intro n
  induction n with
  | zero => intro s; exact ⟨by simp [manyCost], fun acc r l _ h => by cases h⟩
  | succ n ih =>
    intro s
    simp only [manyCost, Nom.manyLoop]
    cases hr : p.run s with
    | fuel =>
      refine ⟨by have := hp.all s; simp only; omega, fun acc r l _ h => ?_⟩
      simp at h
    | err =>
      refine ⟨by have := hp.all s; simp only; omega, fun acc r l ht h => ?_⟩
      simp only at h
      injection h with h
      subst h
      exact ⟨Nat.le_refl _, ht, by simp only; omega⟩
    | ok r' v' =>
      have h1 := hp.ok hr
      have h2 := ih r'
      simp only
      by_cases hb : byteLen r' = byteLen s
      · simp only [if_pos hb]
        refine ⟨by omega, fun acc r l _ h => ?_⟩
        cases h
      · simp only [if_neg hb]
        refine ⟨by omega, fun acc r l _ h => ?_⟩
        have := h2.2 _ _ _ h1.2.1 h
        exact ⟨by omega, this.2.1, by omega⟩

theorem seg_many1 {p : Timed α} (hp : Elem F p) (n : Nat) : Seg p (many1 n p) where
  ok {s r v} h := by
    have h : (p.run s).andThen (fun r v => Nom.manyLoop p.run n r [v]) = .ok r v := h
    simp only [many1]
    cases hr : p.run s with
    | fuel => rw [hr] at h; cases h
    | err => rw [hr] at h; cases h
    | ok r' v' =>
      rw [hr] at h
      have h1 := hp.ok hr
      have h2 := (manyLoop_cost hp n r').2 _ _ _ h1.2.1 h
      simp only
      exact ⟨by omega, h2.2.1, by omega⟩
  all s := by
    simp only [many1]
    cases hr : p.run s with
    | fuel => have := hp.all s; simp only; omega
    | err => have := hp.all s; simp only; omega
    | ok r' v' =>
      have h1 := hp.ok hr
      have h2 := (manyLoop_cost hp n r').1
      simp only
      omega

theorem seg_map {q : Timed γ} {p : Timed α} (hp : Seg q p) (f : α → β) : Seg q (bind p fun v => pure (f v)) where
  ok {s r v} h := by
    simp only [bind, pure] at h ⊢
    cases hr : p.run s with
    | fuel => rw [hr] at h; cases h
    | err => rw [hr] at h; cases h
    | ok r' v' =>
      rw [hr] at h
      injection h with h
      subst h
      exact hp.ok hr
  all s := by
    simp only [bind, pure]
    have := hp.all s
    split <;> omega

theorem expressionNext_cost (s : Str) :
    (∃ r, (expressionNext F).run s = .ok r () ∧ r.length < s.length ∧ (expressionNext F).cost s + 3 * r.length ≤ 3 * s.length + 3 ∧
      ∃ cs, s = F.alternativeSeparator :: cs) ∨
    (expressionNext F).run s = .err ∧ (expressionNext F).cost s = 1 := by
  have hlin : Lin (expressionNext F) (1 + (2 + 0)) := lin_bind (lin_char _) fun _ => lin_bind lin_ws fun _ => lin_pure ()
  by_cases h : ∃ cs, s = F.alternativeSeparator :: cs
  · obtain ⟨cs, rfl⟩ := h
    have : (expressionNext F).run (F.alternativeSeparator :: cs) = .ok (skipM false cs) () := by
      simp [expressionNext, bind, char, prim, Nom.char_cons, ws_ok, pure]
    have h1 := hlin.ok this
    have h2 := skipM_length false cs
    refine .inl ⟨_, this, by simp only [List.length_cons]; omega, by omega, cs, rfl⟩
  · right
    have : Nom.char F.alternativeSeparator s = .err := by
      cases s with
      | nil => rfl
      | cons c cs =>
        refine Nom.char_ne ?_ cs
        rintro rfl
        exact h ⟨cs, rfl⟩
    simp [expressionNext, bind, char, prim, this]

theorem xtLoop_cost (hF : F.Regular) {q : Timed β} (hq : Elem F q) {p : Timed α} (hp : Seg q p) : ∀ n s,
    xtCost p (expressionNext F) n s ≤ 16 * s.length + 12 ∧
    ∀ acc r l, Nom.xtLoop p.run (expressionNext F).run n s acc = .ok r l → r.length < s.length ∧ Tight r ∧
      xtCost p (expressionNext F) n s + 16 * r.length ≤ 16 * s.length + q.cost r + 1 := by
  intro n
  induction n with
  | zero => intro s; exact ⟨by simp [xtCost], fun acc r l h => by cases h⟩
  | succ n ih =>
    intro s
    simp only [xtCost, Nom.xtLoop]
    cases hr : p.run s with
    | fuel =>
      refine ⟨by have := hp.all s; simp only; omega, fun acc r l h => ?_⟩
      simp at h
    | err =>
      refine ⟨by have := hp.all s; simp only; omega, fun acc r l h => ?_⟩
      simp at h
    | ok r' v' =>
      have h1 := hp.ok hr
      simp only
      rcases expressionNext_cost (F := F) r' with ⟨r2, hd, hl, hc, cs, hcs⟩ | ⟨hd, hc⟩
      · have hstop : q.cost r' ≤ 5 := by
          refine hq.stop ?_
          intro c ds h
          rw [hcs] at h
          injection h with h
          subst h
          exact hF.altSep.1
        have h2 := ih r2
        rw [hd]
        simp only
        refine ⟨by omega, fun acc r l h => ?_⟩
        have h3 := h2.2 _ _ _ h
        exact ⟨by omega, h3.2.1, by omega⟩
      · rw [hd]
        have h2 := hq.all r'
        simp only
        refine ⟨by omega, fun acc r l h => ?_⟩
        injection h with h
        subst h
        exact ⟨h1.1, h1.2.1, by omega⟩

/-- What is used of the parser for terms. -/
structure TermLin (F : Format) (p : Timed α) : Prop where
  ok : ∀ {s r v}, p.run s = .ok r v → r.length < s.length ∧ Tight r ∧ p.cost s + 3 + 16 * r.length ≤ 16 * s.length
  all : ∀ s, p.cost s ≤ 16 * s.length + 11
  stop : ∀ {s : Str}, (∀ c cs, s = c :: cs → ¬ Starts F c) → (∀ r v, p.run s ≠ .ok r v) ∧ p.cost s ≤ 5

/-- An element is a term that is not followed by the separator of a production. -/
theorem elem_of_term (hsep : F.productionSeparator.length ≤ 3) {p : Timed α} (hp : TermLin F p) :
    Elem F (terminated p (not (tag F.productionSeparator))) where
  ok {s r v} h := by
    have h : Nom.terminated p.run (Nom.not (Nom.tag F.productionSeparator)) s = .ok r v := h
    obtain ⟨h1, h2⟩ := Nom.terminated_not_ok.mp h
    have h3 := hp.ok h1
    refine ⟨h3.1, h3.2.1, ?_⟩
    simp only [terminated, bind, not, tag, prim, h1, Nom.not, h2, pure, Nat.add_zero]
    omega
  all s := by
    simp only [terminated, bind, not, tag, prim]
    cases hr : p.run s with
    | fuel => have := hp.all s; simp only; omega
    | err => have := hp.all s; simp only; omega
    | ok r' v' =>
      have h3 := hp.ok hr
      simp only [pure]
      split <;> omega
  stop {s} hs := by
    obtain ⟨h1, h2⟩ := hp.stop hs
    simp only [terminated, bind]
    cases hr : p.run s with
    | ok r v => exact absurd hr (h1 r v)
    | _ => exact h2

theorem bind_ok {a : Timed α} {f : α → Timed β} {s r : Str} {v : α} (h : a.run s = .ok r v) :
    (bind a f).run s = (f v).run r ∧ (bind a f).cost s = a.cost s + (f v).cost r := by
  simp [bind, h]

theorem bind_no {a : Timed α} {f : α → Timed β} {s : Str} (h : ∀ r v, a.run s ≠ .ok r v) :
    (∀ r v, (bind a f).run s ≠ .ok r v) ∧ (bind a f).cost s = a.cost s := by
  simp only [bind]
  cases hr : a.run s with
  | ok r v => exact absurd hr (h r v)
  | _ => simp

theorem group_lin (hF : F.Regular) {o c : Char} (hc : ¬ Starts F c) {q : Timed β} (hq : Elem F q) {p : Timed α} (hp : Seg q p) {f : List α → γ} (n : Nat) :
    (∀ {s r v}, (bind (delimited (char o) (xtList n p (expressionNext F)) (char c)) fun rhs => bind ws fun _ => pure (f rhs)).run s = .ok r v →
      (bind (delimited (char o) (xtList n p (expressionNext F)) (char c)) fun rhs => bind ws fun _ => pure (f rhs)).cost s + 22 + 16 * r.length ≤
        16 * s.length) ∧
    (∀ s, (bind (delimited (char o) (xtList n p (expressionNext F)) (char c)) fun rhs => bind ws fun _ => pure (f rhs)).cost s ≤
      16 * s.length + 1) := by
  have key : ∀ s, ((bind (delimited (char o) (xtList n p (expressionNext F)) (char c)) fun rhs => bind ws fun _ => pure (f rhs)).cost s ≤
      16 * s.length + 1) ∧
      ∀ {r v}, (bind (delimited (char o) (xtList n p (expressionNext F)) (char c)) fun rhs => bind ws fun _ => pure (f rhs)).run s = .ok r v →
      (bind (delimited (char o) (xtList n p (expressionNext F)) (char c)) fun rhs => bind ws fun _ => pure (f rhs)).cost s + 22 + 16 * r.length ≤
        16 * s.length := by
    intro s
    by_cases ho : ∃ s1, s = o :: s1
    · obtain ⟨s1, rfl⟩ := ho
      have hx := xtLoop_cost hF hq hp n s1
      have h0 : (char o).run (o :: s1) = .ok s1 o := Nom.char_cons o s1
      have h0c : (char o).cost (o :: s1) = 1 := rfl
      have hxc : (xtList n p (expressionNext F)).cost s1 = xtCost p (expressionNext F) n s1 := rfl
      simp only [List.length_cons]
      by_cases hr : ∃ r l, (xtList n p (expressionNext F)).run s1 = .ok r l
      · obtain ⟨r1, l, hr⟩ := hr
        have h1 := hx.2 _ _ _ hr
        have hcc : (char c).cost r1 = 1 := rfl
        by_cases hcl : ∃ r2, r1 = c :: r2
        · obtain ⟨r2, rfl⟩ := hcl
          have hstop : q.cost (c :: r2) ≤ 5 := hq.stop fun d ds h => by injection h with h; subst h; exact hc
          have h2 := lin_ws.ok (ws_ok r2)
          have hcr : (char c).run (c :: r2) = .ok r2 c := Nom.char_cons c r2
          have hd : (delimited (char o) (xtList n p (expressionNext F)) (char c)).run (o :: s1) = .ok r2 l ∧
              (delimited (char o) (xtList n p (expressionNext F)) (char c)).cost (o :: s1) = 1 + (xtCost p (expressionNext F) n s1 + 1) := by
            unfold delimited
            rw [(bind_ok h0).1, (bind_ok h0).2, (bind_ok hr).1, (bind_ok hr).2, (bind_ok hcr).1, (bind_ok hcr).2, h0c, hxc, hcc]
            exact ⟨rfl, rfl⟩
          have hp0 : (pure (f l) : Timed γ).cost (skipM false r2) = 0 := rfl
          rw [(bind_ok hd.1).1, (bind_ok hd.1).2, (bind_ok (ws_ok r2)).1, (bind_ok (ws_ok r2)).2, hd.2, hp0]
          simp only [List.length_cons] at h1
          refine ⟨by omega, fun {r v} h => ?_⟩
          injection h with h
          subst h
          omega
        · have hce : ∀ r v, (char c).run r1 ≠ .ok r v := by
            intro r v h
            exact hcl ⟨r, (Nom.char_ok.mp h).1⟩
          have h2 := hq.all r1
          have hd : (∀ r v, (delimited (char o) (xtList n p (expressionNext F)) (char c)).run (o :: s1) ≠ .ok r v) ∧
              (delimited (char o) (xtList n p (expressionNext F)) (char c)).cost (o :: s1) = 1 + (xtCost p (expressionNext F) n s1 + 1) := by
            unfold delimited
            rw [(bind_ok h0).1, (bind_ok h0).2, (bind_ok hr).1, (bind_ok hr).2, (bind_no hce).2, h0c, hxc, hcc]
            exact ⟨(bind_no hce).1, rfl⟩
          rw [(bind_no hd.1).2, hd.2]
          exact ⟨by omega, fun {r v} h => absurd h ((bind_no hd.1).1 r v)⟩
      · have hr : ∀ r v, (xtList n p (expressionNext F)).run s1 ≠ .ok r v := fun r v h => hr ⟨r, v, h⟩
        have hd : (∀ r v, (delimited (char o) (xtList n p (expressionNext F)) (char c)).run (o :: s1) ≠ .ok r v) ∧
            (delimited (char o) (xtList n p (expressionNext F)) (char c)).cost (o :: s1) = 1 + xtCost p (expressionNext F) n s1 := by
          unfold delimited
          rw [(bind_ok h0).1, (bind_ok h0).2, (bind_no hr).2, h0c, hxc]
          exact ⟨(bind_no hr).1, rfl⟩
        rw [(bind_no hd.1).2, hd.2]
        exact ⟨by omega, fun {r v} h => absurd h ((bind_no hd.1).1 r v)⟩
    · obtain ⟨h1, h2⟩ := bind_stop (f := fun rhs => bind ws fun _ => pure (f rhs))
        (delimited_char_err (c := o) (d := c) (b := xtList n p (expressionNext F)) (s := s) fun cs h => ho ⟨cs, h⟩)
      rw [h1, h2]
      refine ⟨by omega, fun h => by cases h⟩
  exact ⟨fun {s r v} h => (key s).2 h, fun s => (key s).1⟩

theorem alt_alt {a b x : Timed α} {s : Str} (h : x.run s = .err) :
    (alt a (alt b x)).run s = (alt a b).run s ∧ (alt a (alt b x)).cost s ≤ (alt a b).cost s + x.cost s := by
  simp only [alt, Nom.alt, h]
  cases a.run s with
  | err =>
    simp only
    cases b.run s <;> simp only [true_and] <;> omega
  | _ => simp only [true_and]; omega

theorem starts_cases {s : Str} (h : ∀ c cs, s = c :: cs → ¬ Starts F c) :
    (∀ c cs, s = c :: cs → c ≠ '"' ∧ c ≠ '\'') ∧ (∀ c cs, s = c :: cs → ¬ NameStart F c) ∧ (∀ cs, s ≠ '(' :: cs) ∧ (∀ cs, s ≠ '[' :: cs) := by
  simp only [Starts, not_or] at h
  exact ⟨fun c cs hs => ⟨(h c cs hs).1, (h c cs hs).2.1⟩, fun c cs hs => (h c cs hs).2.2.2.2, fun cs hs => (h _ cs hs).2.2.1 rfl,
    fun cs hs => (h _ cs hs).2.2.2.1 rfl⟩

theorem termLin_parsedTerm (hF : F.Regular) (hsep : F.productionSeparator.length ≤ 3) (n : Nat) : TermLin F (parsedTerm F n) := by
  induction n with
  | zero =>
    refine ⟨?_, ?_, ?_⟩
    · intro s r v h; cases h
    · intro s; simp [parsedTerm, prim]
    · intro s _; exact ⟨fun r v h => (by cases h), by simp [parsedTerm, prim]⟩
  | succ n ih =>
    have hq := elem_of_term hsep ih
    have hp := seg_many1 hq n
    have hG := group_lin hF (o := '(') (close_not_starts hF (.inl rfl)) hq hp (f := ParsedTerm.group) n
    have hO := group_lin hF (o := '[') (close_not_starts hF (.inr rfl)) hq hp (f := ParsedTerm.optional) n
    have hsimple : Lin (alt parsedTerminal (parsedNonterminal F)) 8 :=
      lin_simple hF (f := fun t => ParsedTerm.simple (.terminal t)) (g := fun t => ParsedTerm.simple (.nonterminal t))
    have hGc := fun s => delimited_char_err (c := '(') (d := ')') (b := parsedAltsWith F n (parsedTerm F n)) (s := s)
    have hOc := fun s => delimited_char_err (c := '[') (d := ']') (b := parsedAltsWith F n (parsedTerm F n)) (s := s)
    generalize hg : parsedAnonymousGroup F n (parsedTerm F n) = G
    generalize ho : parsedOptionalGroup F n (parsedTerm F n) = O
    have hG1 : (∀ {s r v}, G.run s = .ok r v → G.cost s + 22 + 16 * r.length ≤ 16 * s.length) ∧ ∀ s, G.cost s ≤ 16 * s.length + 1 := by
      subst hg; exact hG
    have hO1 : (∀ {s r v}, O.run s = .ok r v → O.cost s + 22 + 16 * r.length ≤ 16 * s.length) ∧ ∀ s, O.cost s ≤ 16 * s.length + 1 := by
      subst ho; exact hO
    have hG2 : ∀ s, (∀ cs, s ≠ '(' :: cs) → G.run s = .err ∧ G.cost s = 1 := by
      subst hg; exact fun s h => bind_stop (hGc s h)
    have hO2 : ∀ s, (∀ cs, s ≠ '[' :: cs) → O.run s = .err ∧ O.cost s = 1 := by
      subst ho; exact fun s h => bind_stop (hOc s h)
    have hrun : parsedTerm F (n + 1) = deeper (alt parsedTerminal (alt (parsedNonterminal F) (alt G O))) := by
      rw [parsedTerm, hg, ho]
    have hT : ∀ s, (∀ c cs, s = c :: cs → c ≠ '"' ∧ c ≠ '\'') → parsedTerminal.run s = .err ∧ parsedTerminal.cost s = 2 :=
      fun s h => bind_stop (quotedText_stop h)
    have hN : ∀ s, (∀ c cs, s = c :: cs → ¬ NameStart F c) → (parsedNonterminal F).run s = .err ∧ (parsedNonterminal F).cost s = 1 :=
      fun s h => bind_stop (nameText_stop h)
    have hcase : ∀ s : Str, ((∀ cs, s ≠ '(' :: cs) ∧ (∀ cs, s ≠ '[' :: cs)) ∨
        ((parsedTerminal.run s = .err ∧ parsedTerminal.cost s = 2) ∧ (parsedNonterminal F).run s = .err ∧ (parsedNonterminal F).cost s = 1 ∧
          ((O.run s = .err ∧ O.cost s = 1) ∨ (G.run s = .err ∧ G.cost s = 1))) := by
      intro s
      by_cases h1 : ∃ cs, s = '(' :: cs
      · obtain ⟨cs, rfl⟩ := h1
        have hn : ¬ NameStart F '(' := fun h => by have := (hF.nameStart _ h).2; simp at this
        refine .inr ⟨hT _ fun c ds h => ?_, (hN _ fun c ds h => ?_).1, (hN _ fun c ds h => ?_).2, .inl (hO2 _ fun ds => by simp)⟩
        all_goals (injection h with h; subst h)
        · decide
        · exact hn
        · exact hn
      · by_cases h2 : ∃ cs, s = '[' :: cs
        · obtain ⟨cs, rfl⟩ := h2
          have hn : ¬ NameStart F '[' := fun h => by have := (hF.nameStart _ h).2; simp at this
          refine .inr ⟨hT _ fun c ds h => ?_, (hN _ fun c ds h => ?_).1, (hN _ fun c ds h => ?_).2, .inr (hG2 _ fun ds => by simp)⟩
          all_goals (injection h with h; subst h)
          · decide
          · exact hn
          · exact hn
        · exact .inl ⟨fun cs h => h1 ⟨cs, h⟩, fun cs h => h2 ⟨cs, h⟩⟩
    have hcost : ∀ s, (parsedTerm F (n + 1)).cost s = (alt parsedTerminal (alt (parsedNonterminal F) (alt G O))).cost s := by
      intro s; rw [hrun]; rfl
    have hrun' : ∀ s, (parsedTerm F (n + 1)).run s = (alt parsedTerminal (alt (parsedNonterminal F) (alt G O))).run s := by
      intro s; rw [hrun]; rfl
    have hnoX : ∀ s, ((∀ cs, s ≠ '(' :: cs) ∧ (∀ cs, s ≠ '[' :: cs)) →
        (parsedTerm F (n + 1)).run s = (alt parsedTerminal (parsedNonterminal F)).run s ∧
        (parsedTerm F (n + 1)).cost s ≤ (alt parsedTerminal (parsedNonterminal F)).cost s + 2 := by
      intro s h
      have hx : (alt G O).run s = .err ∧ (alt G O).cost s = 2 := by
        refine ⟨?_, ?_⟩
        · show Nom.alt _ _ s = .err
          rw [Nom.alt_of_err (hG2 s h.1).1, (hO2 s h.2).1]
        · rw [alt_cost_err (hG2 s h.1).1, (hG2 s h.1).2, (hO2 s h.2).2]
      have := alt_alt (a := parsedTerminal) (b := parsedNonterminal F) hx.1
      rw [hrun', hcost]
      exact ⟨this.1, by rw [hx.2] at this; exact this.2⟩
    have hX : ∀ s, parsedTerminal.run s = .err ∧ parsedTerminal.cost s = 2 → (parsedNonterminal F).run s = .err ∧ (parsedNonterminal F).cost s = 1 →
        (parsedTerm F (n + 1)).run s = Nom.alt G.run O.run s ∧ (parsedTerm F (n + 1)).cost s = 3 + (alt G O).cost s := by
      intro s h1 h2
      rw [hrun', hcost]
      refine ⟨?_, ?_⟩
      · show Nom.alt _ (Nom.alt _ _) s = _
        rw [Nom.alt_of_err h1.1, Nom.alt_of_err h2.1]
        rfl
      · rw [alt_cost_err h1.1, alt_cost_err h2.1, h1.2, h2.2]
        omega
    refine ⟨?_, ?_, ?_⟩
    · intro s r v h
      obtain ⟨h1, h2⟩ := parsedTerm_sound hF (n := n + 1) (by rw [← parsedTerm_run]; exact h)
      have hl := h1.suffix.2
      refine ⟨hl, h2, ?_⟩
      rcases hcase s with hs | ⟨hs1, hs2, hs3, hs4⟩
      · obtain ⟨h3, h4⟩ := hnoX s hs
        rw [h3] at h
        have := hsimple.ok h
        omega
      · obtain ⟨h3, h4⟩ := hX s hs1 ⟨hs2, hs3⟩
        rw [h3] at h
        rw [h4]
        rcases Nom.alt_ok.mp h with h | ⟨h, h'⟩
        · have := hG1.1 h
          rw [alt_cost_ne (by rw [h]; simp)]
          omega
        · have := hO1.1 h'
          rw [alt_cost_err h]
          rcases hs4 with hs4 | hs4
          · rw [hs4.1] at h'; cases h'
          · omega
    · intro s
      rcases hcase s with hs | ⟨hs1, hs2, hs3, hs4⟩
      · obtain ⟨h3, h4⟩ := hnoX s hs
        have := hsimple.all s
        omega
      · obtain ⟨h3, h4⟩ := hX s hs1 ⟨hs2, hs3⟩
        rw [h4]
        have h5 := hG1.2 s
        have h6 := hO1.2 s
        by_cases h : G.run s = .err
        · rw [alt_cost_err h]
          rcases hs4 with hs4 | hs4 <;> omega
        · rw [alt_cost_ne h]; omega
    · intro s hs
      obtain ⟨h1, h2, h3, h4⟩ := starts_cases hs
      obtain ⟨h5, h6⟩ := hX s (hT s h1) (hN s h2)
      refine ⟨fun r v h => ?_, ?_⟩
      · rw [h5, Nom.alt_of_err (hG2 s h3).1, (hO2 s h4).1] at h
        cases h
      · rw [h6, alt_cost_err (hG2 s h3).1, (hG2 s h3).2, (hO2 s h4).2]; omega

theorem termLin_term (hF : F.Regular) : TermLin F (term F) := by
  have hlin : Lin (term F) 8 := lin_simple hF (f := Term.terminal) (g := Term.nonterminal)
  refine ⟨?_, ?_, ?_⟩
  · intro s r v h
    have h1 := hlin.ok h
    have h2 : r.length < s.length ∧ Tight r := by
      rw [term_run] at h
      rcases Nom.alt_ok.mp h with h | ⟨_, h⟩
      · simp only [Bnf.terminal, Res.andThen_ok, Res.ok.injEq, quotedText_ok] at h
        obtain ⟨s1, u, h1', s2, w, h2, rfl, rfl⟩ := h
        exact ⟨(Spec.Syn.suffix (F := F) (.terminal h1' (ws_sound h2).1)).2, (ws_sound h2).2⟩
      · simp only [Bnf.nonterminal, Res.andThen_ok, Res.ok.injEq, nameText_ok hF.named] at h
        obtain ⟨s1, u, h1', s2, w, h2, rfl, rfl⟩ := h
        exact ⟨(Spec.Syn.suffix (F := F) (.nonterminal h1' (ws_sound h2).1)).2, (ws_sound h2).2⟩
    exact ⟨h2.1, h2.2, by omega⟩
  · intro s
    have := hlin.all s
    omega
  · intro s hs
    obtain ⟨h1, h2, _, _⟩ := starts_cases hs
    have h3 : terminal.run s = .err ∧ terminal.cost s = 2 := bind_stop (quotedText_stop h1)
    have h4 : (nonterminal F).run s = .err ∧ (nonterminal F).cost s = 1 := bind_stop (nameText_stop h2)
    refine ⟨fun r v h => ?_, ?_⟩
    · have h : Nom.alt terminal.run (nonterminal F).run s = .ok r v := h
      rw [Nom.alt_of_err h3.1, h4.1] at h
      cases h
    · rw [term, alt_cost_err h3.1, h3.2, h4.2]; omega

/-! ## Productions and grammars -/

/-- What is used of the parts of a production: its left-hand side `lhs`, its right-hand side `rhs` whose elements are read by `q`, and the look
`fin` at what follows. -/
structure Parts {δ ρ : Type} (lhs : Timed δ) (q : Timed β) (rhs : Timed ρ) (fin : Timed Unit) : Prop where
  left : Lin lhs 11
  rhsAll : ∀ s, rhs.cost s ≤ 16 * s.length + 12
  rhsOk : ∀ {s r v}, rhs.run s = .ok r v → r.length < s.length ∧ Tight r ∧ rhs.cost s + 16 * r.length ≤ 16 * s.length + q.cost r + 1
  elem : ∀ s, q.cost s ≤ 16 * s.length + 11
  finOk : ∀ {s r v}, fin.run s = .ok r v → r = s
  finAll : ∀ s, fin.cost s ≤ 3 * s.length + 12
  next : ∀ {s r v}, lhs.run s = .ok r v → Tight s → q.cost s + fin.cost s ≤ 2 * lhs.cost s + 9

section
variable {δ ρ : Type} {lhs : Timed δ} {q : Timed β} {rhs : Timed ρ} {fin : Timed Unit}

/-- A production. -/
abbrev prodOf (lhs : Timed δ) (rhs : Timed ρ) (fin : Timed Unit) (mk : δ → ρ → α) : Timed α :=
  bind lhs fun l => bind rhs fun x => bind fin fun _ => pure (mk l x)

theorem prod_cost (h : Parts lhs q rhs fin) (mk : δ → ρ → α) (s : Str) :
    (prodOf lhs rhs fin mk).cost s ≤ 19 * s.length + 35 ∧
    ∀ {r v}, (prodOf lhs rhs fin mk).run s = .ok r v → r.length < s.length ∧ Tight r ∧
      (prodOf lhs rhs fin mk).cost s + 16 * r.length ≤ 16 * s.length + 12 + (q.cost r + fin.cost r) ∧
      ∃ r1 l, lhs.run s = .ok r1 l ∧ r.length ≤ r1.length := by
  by_cases h1 : ∃ r1 l, lhs.run s = .ok r1 l
  · obtain ⟨r1, l, h1⟩ := h1
    have c1 := h.left.ok h1
    rw [(bind_ok h1).1, (bind_ok h1).2]
    by_cases h2 : ∃ r2 x, rhs.run r1 = .ok r2 x
    · obtain ⟨r2, x, h2⟩ := h2
      have c2 := h.rhsOk h2
      rw [(bind_ok h2).1, (bind_ok h2).2]
      have c3 := h.finAll r2
      have c4 := h.elem r2
      by_cases h3 : ∃ r3 u, fin.run r2 = .ok r3 u
      · obtain ⟨r3, u, h3⟩ := h3
        have := h.finOk h3
        subst this
        have hp0 : (pure (mk l x) : Timed α).cost r3 = 0 := rfl
        rw [(bind_ok h3).1, (bind_ok h3).2, hp0]
        refine ⟨by omega, fun {r v} hr => ?_⟩
        injection hr with hr
        subst hr
        exact ⟨by omega, c2.2.1, by omega, r1, l, h1, by omega⟩
      · have h3 : ∀ r v, fin.run r2 ≠ .ok r v := fun r v h => h3 ⟨r, v, h⟩
        rw [(bind_no h3).2]
        exact ⟨by omega, fun {r v} hr => absurd hr ((bind_no h3).1 r v)⟩
    · have h2 : ∀ r v, rhs.run r1 ≠ .ok r v := fun r v h => h2 ⟨r, v, h⟩
      rw [(bind_no h2).2]
      have c2 := h.rhsAll r1
      exact ⟨by omega, fun {r v} hr => absurd hr ((bind_no h2).1 r v)⟩
  · have h1 : ∀ r v, lhs.run s ≠ .ok r v := fun r v h => h1 ⟨r, v, h⟩
    rw [(bind_no h1).2]
    have c1 := h.left.all s
    exact ⟨by omega, fun {r v} hr => absurd hr ((bind_no h1).1 r v)⟩

theorem item_cost (h : Parts lhs q rhs fin) (mk : δ → ρ → α) {s : Str} (hs : Tight s) :
    ((preceded ws (prodOf lhs rhs fin mk)).cost s + (q.cost s + fin.cost s) ≤ 67 * s.length + 60) ∧
    ∀ {r v}, (preceded ws (prodOf lhs rhs fin mk)).run s = .ok r v → r.length < s.length ∧ Tight r ∧
      (preceded ws (prodOf lhs rhs fin mk)).cost s + (q.cost s + fin.cost s) + 67 * r.length ≤ 67 * s.length + (q.cost r + fin.cost r) := by
  have hw : ws.run s = .ok s () := by rw [ws_ok, skipM_of_tight hs]
  have hwc := ws_tight_cost hs
  unfold preceded
  rw [(bind_ok hw).1, (bind_ok hw).2]
  have hp := prod_cost h mk s
  have c1 := h.elem s
  have c2 := h.finAll s
  refine ⟨by omega, fun {r v} hr => ?_⟩
  obtain ⟨h1, h2, h3, r1, l, h4, h5⟩ := hp.2 hr
  have c3 := h.next h4 hs
  have c4 := h.left.ok h4
  exact ⟨h1, h2, by omega⟩

theorem items_cost (h : Parts lhs q rhs fin) (mk : δ → ρ → α) : ∀ n {s : Str}, Tight s →
    manyCost (preceded ws (prodOf lhs rhs fin mk)) n s + (q.cost s + fin.cost s) ≤ 67 * s.length + 60 := by
  intro n
  induction n with
  | zero =>
    intro s _
    have c1 := h.elem s
    have c2 := h.finAll s
    simp only [manyCost]
    omega
  | succ n ih =>
    intro s hs
    have hi := item_cost h mk hs
    simp only [manyCost]
    cases hr : (preceded ws (prodOf lhs rhs fin mk)).run s with
    | ok r v =>
      have := hi.2 hr
      have := ih this.2.1
      simp only
      split <;> omega
    | _ => simp only; omega

theorem many_items_cost (h : Parts lhs q rhs fin) (mk : δ → ρ → α) (n : Nat) {s : Str} (hs : Tight s) :
    (many1 n (preceded ws (prodOf lhs rhs fin mk))).cost s + (q.cost s + fin.cost s) ≤ 67 * s.length + 60 := by
  have hi := item_cost h mk hs
  simp only [many1]
  cases hr : (preceded ws (prodOf lhs rhs fin mk)).run s with
  | ok r v =>
    have := hi.2 hr
    have := items_cost h mk n this.2.1
    simp only
    omega
  | _ => simp only; omega

theorem ws_many_cost (h : Parts lhs q rhs fin) (mk : δ → ρ → α) (n : Nat) (s : Str) :
    (bind ws fun _ => many1 n (preceded ws (prodOf lhs rhs fin mk))).cost s ≤ 67 * s.length + 62 := by
  rw [(bind_ok (ws_ok s)).2]
  have := many_items_cost h mk n (skipM_tight false s)
  have := lin_ws.ok (ws_ok s)
  omega

theorem ws_prod_many_cost (h : Parts lhs q rhs fin) (mk : δ → ρ → α) {f : α → List α → γ} (n : Nat) (s : Str) :
    (bind ws fun _ => bind (prodOf lhs rhs fin mk) fun first => bind (many1 n (preceded ws (prodOf lhs rhs fin mk))) fun rest =>
      pure (f first rest)).cost s ≤ 67 * s.length + 74 := by
  rw [(bind_ok (ws_ok s)).2]
  have h0 := lin_ws.ok (ws_ok s)
  have hp := prod_cost h mk (skipM false s)
  by_cases h1 : ∃ r v, (prodOf lhs rhs fin mk).run (skipM false s) = .ok r v
  · obtain ⟨r, v, h1⟩ := h1
    rw [(bind_ok h1).2]
    have h2 := hp.2 h1
    have h3 := many_items_cost h mk n h2.2.1
    have h4 : (bind (many1 n (preceded ws (prodOf lhs rhs fin mk))) fun rest => pure (f v rest)).cost r =
        (many1 n (preceded ws (prodOf lhs rhs fin mk))).cost r := by
      simp only [bind, pure]
      split <;> rfl
    rw [h4]
    omega
  · have h1 : ∀ r v, (prodOf lhs rhs fin mk).run (skipM false s) ≠ .ok r v := fun r v h => h1 ⟨r, v, h⟩
    rw [(bind_no h1).2]
    omega

end

theorem lin_parsedProdLhs (hsep : F.productionSeparator.length ≤ 3) : Lin (parsedProdLhs F) (3 + (2 + (3 + (1 + (2 + 0))))) :=
  lin_bind (lin_nameText F) fun nt => lin_bind lin_ws fun _ => lin_bind (lin_tag hsep) fun _ => lin_bind (lin_opt_char _) fun _ =>
    lin_bind lin_ws fun _ => lin_pure nt

theorem lin_prodLhs (hsep : F.productionSeparator.length ≤ 3) : Lin (prodLhs F) (3 + 2 + (3 + (1 + (2 + 0)))) :=
  lin_bind (lin_then_ws (lin_nameText F)) fun nt => lin_bind (lin_tag hsep) fun _ => lin_bind (lin_opt_char _) fun _ =>
    lin_bind lin_ws fun _ => lin_pure nt

theorem name_then_ws_le {f : Str → α} {k : Str → Unit → Timed β} {s : Str} :
    (bind (nameText F) fun nt => bind ws fun _ => pure (f nt)).cost s ≤ (bind (nameText F) fun nt => bind ws (k nt)).cost s := by
  by_cases h : ∃ r v, (nameText F).run s = .ok r v
  · obtain ⟨r, v, h⟩ := h
    rw [(bind_ok h).2, (bind_ok h).2, (bind_ok (ws_ok r)).2, (bind_ok (ws_ok r)).2]
    simp only [pure]
    omega
  · have h : ∀ r v, (nameText F).run s ≠ .ok r v := fun r v h' => h ⟨r, v, h'⟩
    rw [(bind_no h).2, (bind_no h).2]
    exact Nat.le_refl _

theorem bind_le {a : Timed α} {f : α → Timed β} (s : Str) : a.cost s ≤ (bind a f).cost s := by
  simp only [bind]; omega

theorem terminated_le (hsep : F.productionSeparator.length ≤ 3) (p : Timed α) (s : Str) :
    (terminated p (not (tag F.productionSeparator))).cost s ≤ p.cost s + 3 := by
  simp only [terminated, bind, not, tag, prim, pure]
  split
  · split <;> simp only [Nat.add_zero] <;> omega
  · omega

theorem recognize_peek_fin {a : Timed α} {s r : Str} {v} (h : (recognize (peek a)).run s = .ok r v) : r = s :=
  recognize_peek_ok (show Nom.recognize (Nom.peek a.run) s = .ok r v from h)

theorem parts_parsed (hF : F.Regular) (hsep : F.productionSeparator.length ≤ 3) (n : Nat) :
    Parts (parsedProdLhs F) (terminated (parsedTerm F n) (not (tag F.productionSeparator))) (parsedProdRhs F n)
      (alt (recognize (peek eof)) (recognize (peek (parsedProdLhs F)))) := by
  have hq := elem_of_term hsep (termLin_parsedTerm hF hsep n)
  have hx := xtLoop_cost hF hq (seg_many1 hq n) n
  have hfin : ∀ s, (alt (recognize (peek eof)) (recognize (peek (parsedProdLhs F)))).cost s ≤ 1 + (parsedProdLhs F).cost s := by
    intro s
    simp only [alt, recognize, peek, eof, prim]
    split <;> omega
  refine ⟨lin_parsedProdLhs hsep, fun s => (hx s).1, fun {s r v} h => (hx s).2 _ _ _ h, hq.all, ?_, ?_, ?_⟩
  · intro s r v h
    rcases Nom.alt_ok.mp h with h | ⟨_, h⟩
    · exact recognize_peek_fin h
    · exact recognize_peek_fin h
  · intro s
    have := hfin s
    have := (lin_parsedProdLhs hsep (F := F)).all s
    omega
  · intro s r v h _
    have h1 := hfin s
    have h2 := terminated_le hsep (parsedTerm F n) s
    have h3 : (parsedTerm F n).cost s ≤ (parsedProdLhs F).cost s + 2 := by
      cases n with
      | zero => simp [parsedTerm, prim]
      | succ n =>
        have hstart := (parsedProdLhs_sound hF (by rw [← parsedProdLhs_run]; exact h)).1.start
        have hT : parsedTerminal.run s = .err ∧ parsedTerminal.cost s = 2 := by
          refine bind_stop (quotedText_stop fun c cs hc => ?_)
          obtain ⟨d, ds, hd, hn⟩ := hstart
          rw [hc] at hd
          injection hd with hd
          subst hd
          have := (hF.nameStart _ hn).2
          constructor <;> (rintro rfl; simp at this)
        have hN : ∃ r v, (parsedNonterminal F).run s = .ok r v := by
          by_cases hn : ∃ r v, (nameText F).run s = .ok r v
          · obtain ⟨r, v, hn⟩ := hn
            refine ⟨skipM false r, .simple (.nonterminal v), ?_⟩
            rw [parsedNonterminal, (bind_ok hn).1, (bind_ok (ws_ok r)).1]
            rfl
          · exact absurd h ((bind_no fun r v h' => hn ⟨r, v, h'⟩).1 _ _)
        obtain ⟨r', v', hN⟩ := hN
        have : (parsedTerm F (n + 1)).cost s = 2 + (parsedNonterminal F).cost s := by
          show (alt parsedTerminal (alt (parsedNonterminal F) _)).cost s = _
          rw [alt_cost_err hT.1, alt_cost_ne (by rw [hN]; simp), hT.2]
        have hle : (parsedNonterminal F).cost s ≤ (parsedProdLhs F).cost s := name_then_ws_le
        omega
    omega

theorem parts_plain (hF : F.Regular) (hsep : F.productionSeparator.length ≤ 3) (n : Nat) :
    Parts (prodLhs F) (terminated (term F) (not (tag F.productionSeparator))) (prodRhs F n) (productionEnd F) := by
  have hq := elem_of_term hsep (termLin_term hF)
  have hx := xtLoop_cost hF hq (seg_map (seg_many1 hq n) (fun ts => (⟨ts⟩ : Expression))) n
  have hfin : ∀ s, (productionEnd F).cost s ≤ 3 * s.length + 12 ∧ (Tight s → (productionEnd F).cost s ≤ (prodLhs F).cost s + 4) := by
    intro s
    unfold productionEnd
    have h0 := (lin_prodLhs hsep (F := F)).all s
    cases hc : F.productionStartChar with
    | some c =>
      have h1 : Lin (preceded ws (char c)) (2 + 1) := lin_bind lin_ws fun _ => lin_char c
      have h1 := h1.all s
      have h2 : (preceded ws (char c)).cost s = ws.cost s + 1 := by rw [preceded, (bind_ok (ws_ok s)).2]; rfl
      simp only [alt, recognize, peek, eof, prim]
      refine ⟨by split <;> omega, fun ht => ?_⟩
      have := ws_tight_cost ht
      split <;> omega
    | none =>
      simp only [alt, recognize, peek, eof, prim]
      refine ⟨by split <;> omega, fun _ => by split <;> omega⟩
  refine ⟨lin_prodLhs hsep, fun s => (hx s).1, fun {s r v} h => (hx s).2 _ _ _ h, hq.all, ?_, fun s => (hfin s).1, ?_⟩
  · intro s r v h
    unfold productionEnd at h
    cases hc : F.productionStartChar with
    | some c =>
      rw [hc] at h
      rcases Nom.alt_ok.mp h with h | ⟨_, h⟩
      · exact recognize_peek_fin h
      · exact recognize_peek_fin h
    | none =>
      rw [hc] at h
      rcases Nom.alt_ok.mp h with h | ⟨_, h⟩
      · exact recognize_peek_fin h
      · exact recognize_peek_fin h
  · intro s r v h ht
    have h1 := (hfin s).2 ht
    have h2 := terminated_le hsep (term F) s
    have hN : ∃ r v, (nonterminal F).run s = .ok r v := by
      by_cases hn : ∃ r v, (nonterminal F).run s = .ok r v
      · exact hn
      · exact absurd h ((bind_no fun r v h' => hn ⟨r, v, h'⟩).1 _ _)
    have hT : terminal.run s = .err ∧ terminal.cost s = 2 := by
      refine bind_stop (quotedText_stop fun c cs hc => ?_)
      have hns : NameStart F c := by
        by_cases hns : NameStart F c
        · exact hns
        · obtain ⟨r, v, hN⟩ := hN
          have := (bind_stop (f := fun nt => bind ws fun _ => pure (Term.nonterminal nt)) (nameText_stop (F := F) (s := s) fun d ds hd => by
            rw [hc] at hd; injection hd with hd; subst hd; exact hns)).1
          rw [nonterminal, this] at hN
          cases hN
      have := (hF.nameStart _ hns).2
      constructor <;> (rintro rfl; simp at this)
    have h3 : (term F).cost s = 2 + (nonterminal F).cost s := by
      rw [term, alt_cost_err hT.1, hT.2]
    have h4 : (nonterminal F).cost s ≤ (prodLhs F).cost s := bind_le s
    omega

theorem parsedGrammar_cost (hF : F.Regular) (hsep : F.productionSeparator.length ≤ 3) (n : Nat) (s : Str) :
    (parsedGrammar F n).cost s ≤ 67 * s.length + 62 :=
  ws_many_cost (parts_parsed hF hsep n) (fun l x => (⟨l, x⟩ : ParsedProduction)) n s

theorem plainGrammar_cost (hF : F.Regular) (hsep : F.productionSeparator.length ≤ 3) (n : Nat) (s : Str) :
    (plainGrammar F n).cost s ≤ 67 * s.length + 74 :=
  ws_prod_many_cost (parts_plain hF hsep n) (fun l x => (⟨l, x⟩ : Production)) (f := fun first rest => (⟨first :: rest⟩ : Grammar)) n s

theorem scanCost_le : ∀ (s : Str) (a b : Bool), scanCost a b s ≤ s.length + 1
  | [], _, _ => by simp [scanCost]
  | c :: cs, a, b => by
    have ih := scanCost_le cs
    simp only [scanCost, List.length_cons]
    have h1 := ih (c != '"') b
    have h2 := ih a (c != '\'')
    have h3 := ih true b
    have h4 := ih a true
    have h5 := ih a b
    split
    · omega
    · split
      · omega
      · split
        · omega
        · split
          · omega
          · split <;> omega

theorem containsCost_le (c : Char) (s : Str) : containsCost c s ≤ s.length + 1 := by
  have := takeWhile_dropWhile_length (fun d => decide (d ≠ c)) s
  simp only [containsCost]
  omega

theorem hasExtendedCost_le (s : Str) : hasExtendedCost s ≤ 3 * s.length + 3 := by
  have h1 := containsCost_le '(' s
  have h2 := containsCost_le '[' s
  have h3 := scanCost_le s false false
  simp only [hasExtendedCost]
  split <;> split <;> omega

theorem allConsuming_cost {α : Type} (a : Timed α) (s : Str) : (allConsuming a).cost s ≤ a.cost s + 1 := by
  simp only [allConsuming]
  split <;> omega

theorem grammarComplete_cost (hF : F.Regular) (hsep : F.productionSeparator.length ≤ 3) (s : Str) :
    (grammarComplete F).cost s ≤ 137 * s.length + 141 := by
  have h1 := hasExtendedCost_le s
  have h2 := parsedGrammar_cost hF hsep (s.length + 1) s
  have h3 := plainGrammar_cost hF hsep (s.length + 1) s
  have h4 := allConsuming_cost (parsedGrammar F (s.length + 1)) s
  have h5 := allConsuming_cost (plainGrammar F (s.length + 1)) s
  simp only [grammarComplete, parsedGrammarComplete]
  split
  · omega
  · split <;> omega

end Bnf.Timed
