import Verif.Proofs.CostNested

/-! # Accepted texts: the calls nest no deeper than the brackets -/

set_option autoImplicit false

namespace Bnf
namespace Timed
open Spec
variable {α β : Type} {F : Format}

/-- No bracket is opened here. -/
def Calm (s : Str) : Prop := ∀ t, s ≠ '(' :: t ∧ s ≠ '[' :: t

/-- A parser that never calls `parsed_term`. -/
def Flat (p : Timed α) : Prop := ∀ s, p.depth s = 0

theorem flat_prim (run : P α) (cost : Str → Nat) : Flat (prim run cost) := fun _ => rfl

theorem flat_bind {a : Timed α} {f : α → Timed β} (ha : Flat a) (hf : ∀ v, Flat (f v)) : Flat (bind a f) := by
  intro s
  simp only [bind, ha s]
  cases a.run s with
  | ok r v => simp only [hf v r]; rfl
  | _ => rfl

theorem flat_alt {a b : Timed α} (ha : Flat a) (hb : Flat b) : Flat (alt a b) := by
  intro s
  simp only [alt, ha s]
  cases a.run s with
  | err => simp only [hb s]; rfl
  | _ => rfl

theorem flat_char (c : Char) : Flat (char c) := flat_prim _ _
theorem flat_ws : Flat ws := flat_prim _ _
theorem flat_pure (v : α) : Flat (pure v) := fun _ => rfl
theorem flat_delimited {γ δ : Type} {a : Timed γ} {b : Timed α} {c : Timed δ} (ha : Flat a) (hb : Flat b) (hc : Flat c) : Flat (delimited a b c) :=
  flat_bind ha fun _ => flat_bind hb fun _ => flat_bind hc fun _ => flat_pure _

theorem flat_nameText (F : Format) : Flat (nameText F) := by
  unfold nameText
  split
  · exact flat_delimited (flat_char _) (flat_prim _ _) (flat_char _)
  · exact fun _ => rfl

theorem flat_parsedNonterminal (F : Format) : Flat (parsedNonterminal F) :=
  flat_bind (flat_nameText F) fun _ => flat_bind flat_ws fun _ => flat_pure _

theorem flat_parsedTerminal : Flat parsedTerminal :=
  flat_bind (flat_alt (flat_delimited (flat_char _) (flat_prim _ _) (flat_char _)) (flat_delimited (flat_char _) (flat_prim _ _) (flat_char _)))
    fun _ => flat_bind flat_ws fun _ => flat_pure _

theorem flat_parsedProdLhs (F : Format) : Flat (parsedProdLhs F) :=
  flat_bind (flat_nameText F) fun _ => flat_bind flat_ws fun _ => flat_bind (flat_prim _ _) fun _ =>
    flat_bind (flat_char F.alternativeSeparator) fun _ => flat_bind flat_ws fun _ => flat_pure _

theorem flat_expressionNext (F : Format) : Flat (expressionNext F) := flat_bind (flat_char _) fun _ => flat_bind flat_ws fun _ => flat_pure _

theorem bind_depth_eq {a : Timed α} {f : α → Timed β} {s r : Str} {v : α} (h : a.run s = .ok r v) :
    (bind a f).depth s = max (a.depth s) ((f v).depth r) := by simp only [bind, h]

theorem bind_depth_err {a : Timed α} {f : α → Timed β} {s : Str} (h : a.run s = .err) : (bind a f).depth s = a.depth s := by
  simp only [bind, h]; omega

theorem bind_run_err {a : Timed α} {f : α → Timed β} {s : Str} (h : a.run s = .err) : (bind a f).run s = .err := by
  simp only [bind, h, Res.andThen]

theorem bracket_err {γ : Type} {c d : Char} {b : Timed γ} {f : γ → Timed ParsedTerm} {s : Str} (h : ∀ t, s ≠ c :: t) :
    (bind (delimited (char c) b (char d)) f).depth s = 0 := by
  have h0 : (char c).run s = .err := by
    cases s with
    | nil => rfl
    | cons x xs =>
      have : x ≠ c := by rintro rfl; exact h xs rfl
      simp [char, prim, Nom.char, this]
  have h1 : (delimited (char c) b (char d)).run s = .err := bind_run_err h0
  rw [bind_depth_err h1]
  exact bind_depth_err h0

/-- `parsed_term` where no bracket is opened. -/
theorem calm_term {s : Str} (h : Calm s) : ∀ n, (parsedTerm F n).depth s ≤ 1
  | 0 => Nat.zero_le _
  | n + 1 => by
    simp only [parsedTerm, deeper, parsedAnonymousGroup, parsedOptionalGroup, alt, flat_parsedTerminal s, flat_parsedNonterminal F s,
      bracket_err fun t => (h t).1, bracket_err fun t => (h t).2]
    split <;> (try split) <;> (try split) <;> simp

/-- The element parser of `parsed_expression`. -/
theorem depth_terminated (pt : Timed α) (t : Str) (s : Str) : (terminated pt (not (tag t))).depth s = pt.depth s := by
  simp only [terminated, bind, not, tag, prim, pure]
  cases pt.run s with
  | ok r v => simp only; split <;> simp
  | _ => simp

/-- Bounded where something with property `w` is read, up to text with property `q`. -/
def Within (p : Timed α) (k : Nat) (w : α → Prop) (q : Str → Prop) : Prop := ∀ s r v, p.run s = .ok r v → w v → q r → p.depth s ≤ k

theorem within_many {p : Timed α} {k : Nat} {w : α → Prop} {q : Str → Prop} (hp : Within p k w fun _ => True) (hq : ∀ s, q s → p.depth s ≤ k) :
    ∀ n s r acc vs, Nom.manyLoop p.run n s acc = .ok r vs → (∀ v ∈ vs, w v) → q r → manyDepth p n s ≤ k ∧ ∀ v ∈ acc, v ∈ vs
  | 0, s, r, acc, vs, h, hw, hr => by cases h
  | n + 1, s, r, acc, vs, h, hw, hr => by
    simp only [Nom.manyLoop] at h
    cases hs : p.run s with
    | fuel => rw [hs] at h; cases h
    | err =>
      rw [hs] at h
      injection h with h1 h2
      subst h1 h2
      simp only [manyDepth, hs]
      have := hq _ hr
      exact ⟨by omega, fun v hv => hv⟩
    | ok r1 v1 =>
      rw [hs] at h
      simp only at h
      split at h
      · cases h
      · rename_i hne
        obtain ⟨h1, h2⟩ := within_many hp hq n r1 r _ vs h hw hr
        have h3 := hp _ _ _ hs (hw v1 (h2 v1 (List.mem_append_right _ (List.mem_singleton.mpr rfl)))) trivial
        simp only [manyDepth, hs, if_neg hne]
        exact ⟨by omega, fun v hv => h2 v (List.mem_append_left _ hv)⟩

theorem within_many1 {p : Timed α} {k : Nat} {w : α → Prop} {q : Str → Prop} (hp : Within p k w fun _ => True) (hq : ∀ s, q s → p.depth s ≤ k) (n : Nat) :
    Within (many1 n p) k (fun vs => ∀ v ∈ vs, w v) q := by
  intro s r vs h hw hr
  obtain ⟨r1, v1, h1, h2⟩ := Res.andThen_ok.mp h
  obtain ⟨h3, h4⟩ := within_many hp hq n r1 r _ vs h2 hw hr
  have h5 := hp _ _ _ h1 (hw v1 (h4 v1 (List.mem_singleton.mpr rfl))) trivial
  simp only [many1, h1]
  omega

theorem within_xt {p : Timed α} {d : Timed β} {k : Nat} {w : α → Prop} {q : Str → Prop} (hp : Within p k w q) (hd : Flat d)
    (hq : ∀ s r v, d.run s = .ok r v → q s) :
    ∀ n s r acc vs, Nom.xtLoop p.run d.run n s acc = .ok r vs → (∀ v ∈ vs, w v) → q r → xtDepth p d n s ≤ k ∧ ∀ v ∈ acc, v ∈ vs
  | 0, s, r, acc, vs, h, hw, hr => by cases h
  | n + 1, s, r, acc, vs, h, hw, hr => by
    simp only [Nom.xtLoop] at h
    cases hs : p.run s with
    | fuel => rw [hs] at h; cases h
    | err => rw [hs] at h; cases h
    | ok r1 v1 =>
      rw [hs] at h
      simp only at h
      simp only [xtDepth, hs, hd r1]
      cases hd1 : d.run r1 with
      | fuel => rw [hd1] at h; cases h
      | err =>
        rw [hd1] at h
        injection h with h1 h2
        subst h1 h2
        have := hp _ _ _ hs (hw v1 (List.mem_append_right _ (List.mem_singleton.mpr rfl))) hr
        exact ⟨by simp only; omega, fun v hv => List.mem_append_left _ hv⟩
      | ok r2 v2 =>
        rw [hd1] at h
        simp only at h ⊢
        obtain ⟨h1, h2⟩ := within_xt hp hd hq n r2 r _ vs h hw hr
        have h3 := hp _ _ _ hs (hw v1 (h2 v1 (List.mem_append_right _ (List.mem_singleton.mpr rfl)))) (hq _ _ _ hd1)
        exact ⟨by omega, fun v hv => h2 v (List.mem_append_left _ hv)⟩

/-- At most `k` brackets inside each other. -/
def Low (k : Nat) (i : Item) : Prop := ∀ m, Nested m i → m ≤ k

theorem calm_altSep (hF : F.Regular) {s r v} (h : (expressionNext F).run s = .ok r v) : Calm s := by
  obtain ⟨r1, v1, h1, _⟩ := Res.andThen_ok.mp h
  obtain ⟨rfl, _⟩ := Nom.char_ok.mp h1
  have := hF.altSep.1
  intro t
  constructor
  · intro h
    injection h with h
    exact this (by rw [h]; unfold Starts; simp)
  · intro h
    injection h with h
    exact this (by rw [h]; unfold Starts; simp)

theorem within_alts (hF : F.Regular) {pt : Timed ParsedTerm} {k : Nat} (hp : Within pt (k + 1) (fun t => Low k (.term t)) fun _ => True)
    (hc : ∀ s, Calm s → pt.depth s ≤ 1) (n : Nat) :
    Within (parsedAltsWith F n pt) (k + 1) (fun as => Low k (.alts as)) Calm := by
  have h1 : Within (terminated pt (not (tag F.productionSeparator))) (k + 1) (fun t => Low k (.term t)) fun _ => True := by
    intro s r v h hw _
    rw [depth_terminated]
    obtain ⟨r1, v1, h1, h2⟩ := Res.andThen_ok.mp h
    obtain ⟨_, _, _, h2⟩ := Res.andThen_ok.mp h2
    injection h2 with _ h2
    subst h2
    exact hp _ _ _ h1 hw trivial
  have h2 := within_many1 h1 (q := Calm) (fun s hs => by rw [depth_terminated]; have := hc s hs; omega) n
  intro s r as h hw hr
  refine (within_xt h2 (flat_expressionNext F) (fun s r v h => calm_altSep hF h) n s r [] as h ?_ hr).1
  intro e he t ht m hm
  exact hw m (.alts he (.terms ht hm))

theorem calm_cons {c : Char} {s : Str} (h1 : c ≠ '(') (h2 : c ≠ '[') : Calm (c :: s) :=
  fun t => ⟨fun h => h1 (by injection h), fun h => h2 (by injection h)⟩

theorem within_bracket (hF : F.Regular) {pt : Timed ParsedTerm} {k : Nat} (hp : Within pt (k + 1) (fun t => Low k (.term t)) fun _ => True)
    (hc : ∀ s, Calm s → pt.depth s ≤ 1) (n : Nat) {o c : Char} (h1 : c ≠ '(') (h2 : c ≠ '[') (f : List ParsedExpression → ParsedTerm) {s r v}
    (h : (bind (delimited (char o) (parsedAltsWith F n pt) (char c)) fun rhs => bind ws fun _ => pure (f rhs)).run s = .ok r v)
    (hw : ∀ as, v = f as → Low k (.alts as)) :
    (bind (delimited (char o) (parsedAltsWith F n pt) (char c)) fun rhs => bind ws fun _ => pure (f rhs)).depth s ≤ k + 1 := by
  obtain ⟨r1, as, ha, hb⟩ := Res.andThen_ok.mp h
  obtain ⟨_, _, _, hb⟩ := Res.andThen_ok.mp hb
  injection hb with _ hb
  obtain ⟨s1, _, hd1, ha⟩ := Res.andThen_ok.mp ha
  obtain ⟨s2, as', hd2, ha⟩ := Res.andThen_ok.mp ha
  obtain ⟨s3, _, hd3, ha⟩ := Res.andThen_ok.mp ha
  injection ha with _ ha
  subst ha
  obtain ⟨rfl, _⟩ := Nom.char_ok.mp hd3
  have h3 := within_alts hF hp hc n _ _ _ hd2 (hw _ hb.symm) (calm_cons h1 h2)
  have h4 : ∀ t, (bind (char c) fun _ => pure as').depth t = 0 := flat_bind (flat_char _) fun _ => flat_pure _
  have h5 : (delimited (char o) (parsedAltsWith F n pt) (char c)).depth s ≤ k + 1 := by
    unfold delimited
    rw [bind_depth_eq hd1, bind_depth_eq hd2, h4, flat_char o s]
    omega
  have h7 : ∀ as t, (bind ws fun _ => pure (f as)).depth t = 0 := fun as => flat_bind flat_ws fun _ => flat_pure _
  obtain ⟨r1, as, ha, hb⟩ := Res.andThen_ok.mp h
  rw [bind_depth_eq ha, h7]
  omega

theorem within_term (hF : F.Regular) : ∀ n k, Within (parsedTerm F n) (k + 1) (fun t => Low k (.term t)) fun _ => True
  | 0, k => fun s r v h _ _ => by cases h
  | n + 1, k => by
    intro s r v h hw _
    by_cases hcalm : Calm s
    · have := calm_term (F := F) hcalm (n + 1)
      omega
    have hs : ∃ x t, s = x :: t ∧ (x = '(' ∨ x = '[') := by
      cases s with
      | nil => exact absurd (fun t => ⟨by simp, by simp⟩) hcalm
      | cons x t =>
        refine ⟨x, t, rfl, ?_⟩
        by_contra hx
        exact hcalm (calm_cons (fun e => hx (.inl e)) fun e => hx (.inr e))
    obtain ⟨x, t, rfl, hx⟩ := hs
    have ih := within_term hF n
    have hc : ∀ s, Calm s → (parsedTerm F n).depth s ≤ 1 := fun s hs => calm_term hs n
    have h : Nom.alt parsedTerminal.run (Nom.alt (parsedNonterminal F).run (Nom.alt (parsedAnonymousGroup F n (parsedTerm F n)).run
      (parsedOptionalGroup F n (parsedTerm F n)).run)) (x :: t) = .ok r v := h
    have e1 : parsedTerminal.run (x :: t) = .err := by
      have h0 : quotedText.run (x :: t) = .err := by
        rcases hx with rfl | rfl <;> rfl
      simp only [parsedTerminal, bind, h0, Res.andThen]
    have e2 : (parsedNonterminal F).run (x :: t) = .err := by
      have h0 : (nameText F).run (x :: t) = .err := by
        refine (nameText_stop fun c cs hc hn => ?_).1
        injection hc with hc
        subst hc
        have := (hF.nameStart x hn).2
        rcases hx with rfl | rfl <;> simp at this
      simp only [parsedNonterminal, bind, h0, Res.andThen]
    have hdepth : (parsedTerm F (n + 1)).depth (x :: t) = (alt (parsedAnonymousGroup F n (parsedTerm F n)) (parsedOptionalGroup F n (parsedTerm F n))).depth (x :: t) + 1 := by
      have e : (parsedTerm F (n + 1)).depth (x :: t) = (alt parsedTerminal (alt (parsedNonterminal F)
        (alt (parsedAnonymousGroup F n (parsedTerm F n)) (parsedOptionalGroup F n (parsedTerm F n))))).depth (x :: t) + 1 := rfl
      rw [e]
      generalize alt (parsedAnonymousGroup F n (parsedTerm F n)) (parsedOptionalGroup F n (parsedTerm F n)) = Q
      simp only [alt, e1, e2, flat_parsedTerminal (x :: t), flat_parsedNonterminal F (x :: t)]
      omega
    rw [hdepth]
    rw [Nom.alt_ok] at h
    rcases h with h | ⟨_, h⟩
    · rw [e1] at h; cases h
    rw [Nom.alt_ok] at h
    rcases h with h | ⟨_, h⟩
    · rw [e2] at h; cases h
    have low : ∀ (f : List ParsedExpression → ParsedTerm), (f = .group ∨ f = .optional) → ∀ as, v = f as → ∀ j, k = j + 1 → Low j (.alts as) := by
      rintro f hf as rfl j rfl m hm
      rcases hf with rfl | rfl
      · have := hw _ (.group hm); omega
      · have := hw _ (.optional hm); omega
    rw [Nom.alt_ok] at h
    rcases h with h | ⟨e3, h⟩
    · have hk : ∃ j, k = j + 1 := by
        obtain ⟨_, as, _, hb⟩ := Res.andThen_ok.mp h
        obtain ⟨_, _, _, hb⟩ := Res.andThen_ok.mp hb
        injection hb with _ hb
        subst hb
        have := hw 1 (.group .none)
        exact ⟨k - 1, by omega⟩
      obtain ⟨j, rfl⟩ := hk
      have := within_bracket hF (ih j) hc n (o := '(') (c := ')') (by decide) (by decide) .group h fun as ha => low _ (.inl rfl) as ha j rfl
      simp only [alt, h]
      have : (parsedAnonymousGroup F n (parsedTerm F n)).depth (x :: t) ≤ j + 1 := this
      omega
    · have hk : ∃ j, k = j + 1 := by
        obtain ⟨_, as, _, hb⟩ := Res.andThen_ok.mp h
        obtain ⟨_, _, _, hb⟩ := Res.andThen_ok.mp hb
        injection hb with _ hb
        subst hb
        have := hw 1 (.optional .none)
        exact ⟨k - 1, by omega⟩
      obtain ⟨j, rfl⟩ := hk
      have hx' : x ≠ '(' := by
        intro hx0
        obtain ⟨_, as, ha, _⟩ := Res.andThen_ok.mp h
        obtain ⟨_, _, hd, _⟩ := Res.andThen_ok.mp ha
        have hd : Nom.char '[' (x :: t) = _ := hd
        have := (Nom.char_ok.mp hd).1
        injection this with h
        rw [hx0] at h
        exact absurd h (by decide)
      have h0 : (parsedAnonymousGroup F n (parsedTerm F n)).depth (x :: t) = 0 := bracket_err (fun u h => hx' (by injection h))
      have := within_bracket hF (ih j) hc n (o := '[') (c := ']') (by decide) (by decide) .optional h fun as ha => low _ (.inr rfl) as ha j rfl
      have : (parsedOptionalGroup F n (parsedTerm F n)).depth (x :: t) ≤ j + 1 := this
      simp only [alt, e3, h0]
      omega

theorem calm_end (hF : F.Regular) {s r v} (h : (alt (recognize (peek eof)) (recognize (peek (parsedProdLhs F)))).run s = .ok r v) : Calm s := by
  have h : Nom.alt (recognize (peek eof)).run (recognize (peek (parsedProdLhs F))).run s = .ok r v := h
  cases s with
  | nil => exact fun t => ⟨by simp, by simp⟩
  | cons x t =>
    have hn : NameStart F x := by
      by_contra hn
      have h0 : (nameText F).run (x :: t) = .err := (nameText_stop fun c cs hc hn' => by injection hc with hc; subst hc; exact hn hn').1
      have h1 : (parsedProdLhs F).run (x :: t) = .err := by simp only [parsedProdLhs, bind, h0, Res.andThen]
      rw [Nom.alt_ok] at h
      rcases h with h | ⟨_, h⟩
      · cases h
      · simp only [recognize, peek, Nom.recognize, Nom.peek, h1, Res.andThen] at h
        cases h
    have := (hF.nameStart x hn).2
    refine calm_cons ?_ ?_ <;> rintro rfl <;> simp at this

theorem within_production (hF : F.Regular) (n k : Nat) :
    Within (preceded ws (parsedProduction F n)) (k + 1) (fun p => Low k (.alts p.rhs)) fun _ => True := by
  intro s r p h hw _
  obtain ⟨s0, _, h0, h⟩ := Res.andThen_ok.mp h
  have h' := h
  obtain ⟨s1, lhs, h1, h⟩ := Res.andThen_ok.mp h
  obtain ⟨s2, rhs, h2, h⟩ := Res.andThen_ok.mp h
  obtain ⟨s3, _, h3, h⟩ := Res.andThen_ok.mp h
  injection h with _ h
  subst h
  have h4 := within_alts hF (within_term hF n k) (fun s hs => calm_term hs n) n _ _ _ h2 hw (calm_end hF h3)
  have h5 : ∀ t, (bind (alt (recognize (peek eof)) (recognize (peek (parsedProdLhs F)))) fun _ => pure (⟨lhs, rhs⟩ : ParsedProduction)).depth t = 0 :=
    flat_bind (flat_alt (fun _ => rfl) fun t => flat_parsedProdLhs F t) fun _ => flat_pure _
  unfold preceded
  rw [bind_depth_eq h0, flat_ws s]
  unfold parsedProduction
  rw [bind_depth_eq h1, flat_parsedProdLhs F s0, bind_depth_eq h2, h5]
  have : (parsedProdRhs F n).depth s1 ≤ k + 1 := h4
  omega

theorem nil_production (n : Nat) : (preceded ws (parsedProduction F n)).depth [] = 0 := by
  have h0 : ws.run [] = .ok [] () := rfl
  have h1 : (parsedProdLhs F).run [] = .err := by
    have h0 : (nameText F).run [] = .err := (nameText_stop fun c cs hc => by cases hc).1
    simp only [parsedProdLhs, bind, h0, Res.andThen]
  unfold preceded
  rw [bind_depth_eq h0, flat_ws []]
  unfold parsedProduction
  rw [bind_depth_err h1, flat_parsedProdLhs F []]
  rfl

theorem grammar_low (hF : F.Regular) {pg s} (h : GrammarText F pg s) {k} (hk : ∀ p ∈ pg, Low k (.alts p.rhs)) : (grammarComplete F).depth s ≤ k + 1 := by
  have h1 : (parsedGrammarComplete F (s.length + 1)).run s = .ok [] pg := by
    rw [parsedGrammarComplete_run]
    exact parsedGrammarComplete_complete hF h (Nat.lt_succ_self _)
  have h2 : (parsedGrammar F (s.length + 1)).run s = .ok [] pg := (Bnf.allConsuming_ok.mp h1).2
  have h3 : (parsedGrammarComplete F (s.length + 1)).depth s ≤ k + 1 := by
    obtain ⟨s0, _, h0, h2⟩ := Res.andThen_ok.mp h2
    have := within_many1 (within_production hF (s.length + 1) k) (q := fun s => s = []) (fun s hs => by rw [hs, nil_production]; omega) (s.length + 1)
      _ _ _ h2 hk rfl
    have e : (parsedGrammarComplete F (s.length + 1)).depth s = (parsedGrammar F (s.length + 1)).depth s := rfl
    rw [e]
    unfold parsedGrammar
    rw [bind_depth_eq h0, flat_ws s]
    omega
  simp only [grammarComplete]
  split
  · exact h3
  · split
    · exact h3
    · omega

end Timed
end Bnf
