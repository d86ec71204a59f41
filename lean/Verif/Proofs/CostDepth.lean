import Verif.Proofs.Cost
import Verif.Proofs.Names
import Verif.Spec.Cost

/-!
# Nesting of calls, and a lower bound for the work
-/

set_option autoImplicit false

namespace Bnf.Timed
open Bnf Bnf.Spec

variable {α β γ : Type} {F : Format}

/-! ## Depth -/

/-- No deeper than the number of brackets, plus `k`. -/
structure Dp (p : Timed α) (k : Nat) : Prop where
  depth : ∀ s, p.depth s ≤ opens s + k
  rest : ∀ {s r v}, p.run s = .ok r v → opens r ≤ opens s

theorem opens_suffix {u s : Str} : opens s ≤ opens (u ++ s) := by simp [opens]

theorem dp_prim {run : P α} {cost : Str → Nat} (h : ∀ {s r v}, run s = .ok r v → ∃ u, s = u ++ r) (k : Nat) : Dp (prim run cost) k where
  depth s := by simp [prim]
  rest {s r v} hr := by obtain ⟨u, rfl⟩ := h hr; exact opens_suffix

theorem dp_pure (v : α) (k : Nat) : Dp (pure v) k := dp_prim (run := fun s => .ok s v) (cost := fun _ => 0) (fun h => by
  injection h with h; exact ⟨[], by simp [h]⟩) k

theorem dp_bind {a : Timed α} {f : α → Timed β} {k : Nat} (ha : Dp a k) (hf : ∀ v, Dp (f v) k) : Dp (bind a f) k where
  depth s := by
    have h1 := ha.depth s
    simp only [bind]
    cases hr : a.run s with
    | ok r v => have h2 := (hf v).depth r; have h3 := ha.rest hr; simp only; omega
    | _ => simp only; omega
  rest {s r v} h := by
    simp only [bind] at h
    cases hr : a.run s with
    | ok r' v' => rw [hr] at h; exact Nat.le_trans ((hf v').rest h) (ha.rest hr)
    | fuel => rw [hr] at h; cases h
    | err => rw [hr] at h; cases h

theorem dp_mono {p : Timed α} {j k : Nat} (h : Dp p j) (hjk : j ≤ k) : Dp p k :=
  ⟨fun s => by have := h.depth s; omega, h.rest⟩

theorem dp_alt {a b : Timed α} {k : Nat} (ha : Dp a k) (hb : Dp b k) : Dp (alt a b) k where
  depth s := by
    have h1 := ha.depth s
    have h2 := hb.depth s
    simp only [alt]
    split <;> omega
  rest {s r v} h := by
    rcases Nom.alt_ok.mp h with h | ⟨_, h⟩
    · exact ha.rest h
    · exact hb.rest h

theorem dp_char (c : Char) (k : Nat) : Dp (char c) k := dp_prim (fun h => ⟨[c], (Nom.char_ok.mp h).1⟩) k

theorem dp_tag (t : Str) (k : Nat) : Dp (tag t) k := dp_prim (fun h => ⟨t, Nom.tag_ok.mp h⟩) k

theorem dp_takeTill (f : Char → Bool) (k : Nat) : Dp (takeTill f) k :=
  dp_prim (fun {s r v} h => by injection h with h; subst h; exact dropWhile_suffix s) k

theorem dp_takeUntil (c : Char) (k : Nat) : Dp (takeUntil c) k :=
  dp_prim (fun {s r v} h => by obtain ⟨r', rfl, rfl, _⟩ := Nom.takeUntil_ok.mp h; exact ⟨v, rfl⟩) k

theorem dp_ws (k : Nat) : Dp ws k := dp_prim (fun h => (ws_sound h).1.suffix) k

theorem dp_eof (k : Nat) : Dp eof k := dp_prim (fun {s r v} h => by
  cases s with
  | nil => injection h with h; subst h; exact ⟨[], rfl⟩
  | cons c cs => cases h) k

theorem dp_not {a : Timed α} {k : Nat} (ha : Dp a k) : Dp (not a) k where
  depth := ha.depth
  rest {s r v} h := by
    simp only [not, Nom.not] at h
    split at h
    · cases h
    · injection h with h; subst h; exact Nat.le_refl _
    · cases h

theorem dp_opt {a : Timed α} {k : Nat} (ha : Dp a k) : Dp (opt a) k where
  depth := ha.depth
  rest {s r v} h := by
    simp only [opt, Nom.opt] at h
    split at h
    · rename_i hr; injection h with h; subst h; exact ha.rest hr
    · injection h with h; subst h; exact Nat.le_refl _
    · cases h

theorem dp_recognize_peek {a : Timed α} {k : Nat} (ha : Dp a k) : Dp (recognize (peek a)) k where
  depth := ha.depth
  rest {s r v} h := by rw [recognize_peek_fin h]

theorem dp_delimited {a : Timed α} {b : Timed β} {c : Timed γ} {k : Nat} (ha : Dp a k) (hb : Dp b k) (hc : Dp c k) : Dp (delimited a b c) k :=
  dp_bind ha fun _ => dp_bind hb fun v => dp_bind hc fun _ => dp_pure v k

theorem manyLoop_dp {p : Timed α} {k : Nat} (hp : Dp p k) : ∀ n s, manyDepth p n s ≤ opens s + k ∧
    ∀ acc r l, Nom.manyLoop p.run n s acc = .ok r l → opens r ≤ opens s := by
  intro n
  induction n with
  | zero => intro s; exact ⟨by simp [manyDepth], fun acc r l h => by cases h⟩
  | succ n ih =>
    intro s
    have h0 := hp.depth s
    simp only [manyDepth, Nom.manyLoop]
    cases hr : p.run s with
    | fuel => exact ⟨by simp only; omega, fun acc r l h => by simp at h⟩
    | err => exact ⟨by simp only; omega, fun acc r l h => by simp only at h; injection h with h; subst h; exact Nat.le_refl _⟩
    | ok r' v' =>
      have h1 := hp.rest hr
      have h2 := ih r'
      simp only
      by_cases hb : byteLen r' = byteLen s
      · simp only [if_pos hb]
        exact ⟨by omega, fun acc r l h => by cases h⟩
      · simp only [if_neg hb]
        exact ⟨by omega, fun acc r l h => Nat.le_trans (h2.2 _ _ _ h) h1⟩

theorem dp_many1 {p : Timed α} {k : Nat} (hp : Dp p k) (n : Nat) : Dp (many1 n p) k where
  depth s := by
    have h0 := hp.depth s
    simp only [many1]
    cases hr : p.run s with
    | ok r v => have h1 := hp.rest hr; have h2 := (manyLoop_dp hp n r).1; simp only; omega
    | _ => simp only; omega
  rest {s r v} h := by
    have h : (p.run s).andThen (fun r v => Nom.manyLoop p.run n r [v]) = .ok r v := h
    cases hr : p.run s with
    | fuel => rw [hr] at h; cases h
    | err => rw [hr] at h; cases h
    | ok r' v' => rw [hr] at h; exact Nat.le_trans ((manyLoop_dp hp n r').2 _ _ _ h) (hp.rest hr)

theorem dp_xtList {p : Timed α} {d : Timed β} {k : Nat} (hp : Dp p k) (hd : Dp d k) (n : Nat) : Dp (xtList n p d) k := by
  have key : ∀ n s, xtDepth p d n s ≤ opens s + k ∧ ∀ acc r l, Nom.xtLoop p.run d.run n s acc = .ok r l → opens r ≤ opens s := by
    intro n
    induction n with
    | zero => intro s; exact ⟨by simp [xtDepth], fun acc r l h => by cases h⟩
    | succ n ih =>
      intro s
      have h0 := hp.depth s
      simp only [xtDepth, Nom.xtLoop]
      cases hr : p.run s with
      | fuel => exact ⟨by simp only; omega, fun acc r l h => by simp at h⟩
      | err => exact ⟨by simp only; omega, fun acc r l h => by simp at h⟩
      | ok r' v' =>
        have h1 := hp.rest hr
        have h2 := hd.depth r'
        simp only
        cases hr2 : d.run r' with
        | fuel => exact ⟨by simp only; omega, fun acc r l h => by simp at h⟩
        | err => exact ⟨by simp only; omega, fun acc r l h => by simp only at h; injection h with h; subst h; exact h1⟩
        | ok r2 v2 =>
          have h3 := hd.rest hr2
          have h4 := ih r2
          simp only
          exact ⟨by omega, fun acc r l h => Nat.le_trans (h4.2 _ _ _ h) (Nat.le_trans h3 h1)⟩
  exact ⟨fun s => (key n s).1, fun {s r v} h => (key n s).2 _ _ _ h⟩

theorem dp_nameText (F : Format) (k : Nat) : Dp (nameText F) k := by
  unfold nameText
  cases h : F.nonterminalDelimiter with
  | some p => obtain ⟨a, b⟩ := p; exact dp_delimited (dp_char _ _) (dp_takeTill _ _) (dp_char _ _)
  | none =>
    refine ⟨fun s => by simp, fun {s r v} h => ?_⟩
    simp only at h
    cases hr : Nom.satisfy F.isAlphabetic s with
    | fuel => rw [hr] at h; cases h
    | err => rw [hr] at h; cases h
    | ok r' v' => rw [hr] at h; exact (dp_takeTill (fun c => isWhitespace c || c == ')' || c == ']') 0).rest h

theorem dp_quotedText (k : Nat) : Dp quotedText k :=
  dp_alt (dp_delimited (dp_char _ _) (dp_takeUntil _ _) (dp_char _ _)) (dp_delimited (dp_char _ _) (dp_takeUntil _ _) (dp_char _ _))

theorem dp_expressionNext (F : Format) (k : Nat) : Dp (expressionNext F) k :=
  dp_bind (dp_char _ _) fun _ => dp_bind (dp_ws _) fun _ => dp_pure _ _

theorem dp_group {o c : Char} (ho : (o == '(' || o == '[') = true) {b : Timed α} (hb : Dp b 1) {f : α → β} :
    Dp (bind (delimited (char o) b (char c)) fun rhs => bind ws fun _ => pure (f rhs)) 0 := by
  have hD : Dp (delimited (char o) b (char c)) 0 := by
    refine ⟨fun s => ?_, (dp_delimited (dp_char o 1) hb (dp_char c 1)).rest⟩
    by_cases hs : ∃ s1, s = o :: s1
    · obtain ⟨s1, rfl⟩ := hs
      have h1 := hb.depth s1
      have h2 : opens (o :: s1) = opens s1 + 1 := by simp [opens, ho]
      have h3 : ∀ v, Dp (bind (char c) fun _ => pure v : Timed α) 1 := fun v => dp_bind (dp_char c 1) fun _ => dp_pure v 1
      have h4 := (dp_bind hb h3).depth s1
      have h5 : (delimited (char o) b (char c)).depth (o :: s1) = (bind b fun v => bind (char c) fun _ => pure v).depth s1 := by
        simp [delimited, bind, char, prim, Nom.char_cons]
      rw [h5, h2]
      omega
    · have : Nom.char o s = .err := by
        cases s with
        | nil => rfl
        | cons x xs => exact Nom.char_ne (fun h => hs ⟨xs, by rw [h]⟩) xs
      simp [delimited, bind, char, prim, this]
  exact dp_bind hD fun _ => dp_bind (dp_ws 0) fun _ => dp_pure _ 0

theorem dp_parsedTerm (F : Format) (n : Nat) : Dp (parsedTerm F n) 1 := by
  induction n with
  | zero => exact dp_prim (fun h => by cases h) 1
  | succ n ih =>
    have hb : Dp (parsedAltsWith F n (parsedTerm F n)) 1 :=
      dp_xtList (dp_many1 (dp_bind ih fun v => dp_bind (dp_not (dp_tag _ _)) fun _ => dp_pure v 1) n) (dp_expressionNext F 1) n
    have h0 : Dp (alt parsedTerminal (alt (parsedNonterminal F)
        (alt (parsedAnonymousGroup F n (parsedTerm F n)) (parsedOptionalGroup F n (parsedTerm F n))))) 0 :=
      dp_alt (dp_bind (dp_quotedText 0) fun _ => dp_bind (dp_ws 0) fun _ => dp_pure _ 0)
        (dp_alt (dp_bind (dp_nameText F 0) fun _ => dp_bind (dp_ws 0) fun _ => dp_pure _ 0)
          (dp_alt (dp_group (by decide) hb) (dp_group (by decide) hb)))
    exact ⟨fun s => by have := h0.depth s; simp only [parsedTerm, deeper]; omega, h0.rest⟩

theorem dp_parsedProdLhs (F : Format) (k : Nat) : Dp (parsedProdLhs F) k :=
  dp_bind (dp_nameText F k) fun nt => dp_bind (dp_ws k) fun _ => dp_bind (dp_tag _ k) fun _ => dp_bind (dp_opt (dp_char _ k)) fun _ =>
    dp_bind (dp_ws k) fun _ => dp_pure nt k

theorem dp_parsedGrammar (F : Format) (n : Nat) : Dp (parsedGrammar F n) 1 :=
  dp_bind (dp_ws 1) fun _ => dp_many1 (dp_bind (dp_ws 1) fun _ =>
    dp_bind (dp_parsedProdLhs F 1) fun _ =>
    dp_bind (dp_xtList (dp_many1 (dp_bind (dp_parsedTerm F n) fun v => dp_bind (dp_not (dp_tag _ _)) fun _ => dp_pure v 1) n)
      (dp_expressionNext F 1) n) fun _ =>
    dp_bind (dp_alt (dp_recognize_peek (dp_eof 1)) (dp_recognize_peek (dp_parsedProdLhs F 1))) fun _ => dp_pure _ 1) n

theorem grammarComplete_depth (F : Format) (s : Str) : (grammarComplete F).depth s ≤ opens s + 1 := by
  have := (dp_parsedGrammar F (s.length + 1)).depth s
  simp only [grammarComplete, parsedGrammarComplete, allConsuming]
  split
  · omega
  · split <;> omega

/-! ## Nested brackets -/

theorem xtList_depth_ge {p : Timed α} {d : Timed β} (n : Nat) (s : Str) : p.depth s ≤ (xtList (n + 1) p d).depth s := by
  simp only [xtList, xtDepth]; omega

theorem bind_depth_ge {a : Timed α} {f : α → Timed β} (s : Str) : a.depth s ≤ (bind a f).depth s := by simp only [bind]; omega

theorem bind_depth_ok {a : Timed α} {f : α → Timed β} {s r : Str} {v : α} (h : a.run s = .ok r v) : (f v).depth r ≤ (bind a f).depth s := by
  simp only [bind, h]; omega

theorem many1_depth_ge {p : Timed α} (n : Nat) (s : Str) : p.depth s ≤ (many1 n p).depth s := by simp only [many1]; omega

theorem altsWith_depth_ge (F : Format) (n : Nat) (pt : Timed ParsedTerm) (s : Str) :
    pt.depth s ≤ (parsedAltsWith F (n + 1) pt).depth s :=
  Nat.le_trans (Nat.le_trans (bind_depth_ge s) (many1_depth_ge (n + 1) s)) (xtList_depth_ge n s)

theorem parsedTerm_depth_ge (hF : F.Regular) (k : Nat) (s : Str) : ∀ n, k < n → k + 1 ≤ (parsedTerm F n).depth (List.replicate k '(' ++ s) := by
  induction k with
  | zero =>
    intro n hn
    cases n with
    | zero => omega
    | succ n => simp [parsedTerm, deeper]
  | succ k ih =>
    intro n hn
    cases n with
    | zero => omega
    | succ n =>
      cases n with
      | zero => omega
      | succ n =>
        have h1 := ih (n + 1) (by omega)
        rw [List.replicate_succ, List.cons_append]
        generalize List.replicate k '(' ++ s = t at *
        have h2 := altsWith_depth_ge F n (parsedTerm F (n + 1)) t
        have h3 : (parsedAltsWith F (n + 1) (parsedTerm F (n + 1))).depth t ≤
            (parsedAnonymousGroup F (n + 1) (parsedTerm F (n + 1))).depth ('(' :: t) := by
          refine Nat.le_trans ?_ (bind_depth_ge _)
          refine Nat.le_trans ?_ (bind_depth_ok (show (char '(').run ('(' :: t) = .ok t '(' from by simp [char, prim, Nom.char]))
          exact bind_depth_ge _
        have hT : parsedTerminal.run ('(' :: t) = .err := (bind_stop (quotedText_stop fun c cs h => by
          injection h with h; subst h; decide)).1
        have hN : (parsedNonterminal F).run ('(' :: t) = .err := (bind_stop (nameText_stop fun c cs h => by
          injection h with h; subst h; intro h; have := (hF.nameStart _ h).2; simp at this)).1
        have h4 : (parsedAnonymousGroup F (n + 1) (parsedTerm F (n + 1))).depth ('(' :: t) + 1 ≤ (parsedTerm F (n + 1 + 1)).depth ('(' :: t) := by
          have h5 : (parsedTerm F (n + 1 + 1)).depth ('(' :: t) = (alt parsedTerminal (alt (parsedNonterminal F)
              (alt (parsedAnonymousGroup F (n + 1) (parsedTerm F (n + 1))) (parsedOptionalGroup F (n + 1) (parsedTerm F (n + 1)))))).depth ('(' :: t) + 1 := rfl
          rw [h5]
          generalize parsedAnonymousGroup F (n + 1) (parsedTerm F (n + 1)) = G
          simp only [alt, hT, hN]
          omega
        omega

/-! ## Every character of an accepted text is looked at -/

/-- Everything that is read is looked at. -/
def Cov (p : Timed α) : Prop := ∀ {s r v}, p.run s = .ok r v → s.length ≤ r.length + p.cost s

theorem cov_pure (v : α) : Cov (pure v) := fun {s r w} h => by injection h with h; subst h; simp [pure]

theorem cov_bind {a : Timed α} {f : α → Timed β} (ha : Cov a) (hf : ∀ v, Cov (f v)) : Cov (bind a f) := by
  intro s r v h
  simp only [bind] at h ⊢
  cases hr : a.run s with
  | fuel => rw [hr] at h; cases h
  | err => rw [hr] at h; cases h
  | ok r' v' =>
    rw [hr] at h
    have h1 := ha hr
    have h2 := hf v' h
    simp only
    omega

theorem cov_alt {a b : Timed α} (ha : Cov a) (hb : Cov b) : Cov (alt a b) := by
  intro s r v h
  rcases Nom.alt_ok.mp h with h | ⟨h, h'⟩
  · rw [alt_cost_ne (by rw [h]; simp)]; exact ha h
  · rw [alt_cost_err h]; have := hb h'; omega

theorem cov_char (c : Char) : Cov (char c) := fun {s r v} h => by
  obtain ⟨rfl, _⟩ := Nom.char_ok.mp h
  simp [char, prim]

theorem cov_tag (t : Str) : Cov (tag t) := fun {s r v} h => by
  have := Nom.tag_ok.mp h
  subst this
  simp [tag, prim]; omega

theorem cov_takeTill (f : Char → Bool) : Cov (takeTill f) := fun {s r v} h => by
  injection h with h
  subst h
  have := takeWhile_dropWhile_length (fun c => !f c) s
  simp only [takeTill, prim]
  omega

theorem cov_takeUntil (c : Char) : Cov (takeUntil c) := fun {s r v} h => by
  have h : Nom.takeUntil c s = .ok r v := h
  unfold Nom.takeUntil at h
  split at h
  · injection h with h
    subst h
    have := takeWhile_dropWhile_length (fun d => decide (d ≠ c)) s
    simp only [takeUntil, prim]
    omega
  · cases h

theorem wsCost_ge : ∀ {n s}, s.length < n → s.length < wsCost n s + (skipM false s).length := by
  intro n
  induction n with
  | zero => intro s h; omega
  | succ n ih =>
    intro s hn
    unfold wsCost
    simp only
    have hu := takeWhile_dropWhile_length isWhitespace s
    have hskip := skipM_dropWhile s
    by_cases hb : byteLen (s.dropWhile isWhitespace) = byteLen s
    · rw [if_pos hb]
      obtain ⟨u, hu'⟩ := dropWhile_suffix (p := isWhitespace) s
      have : u = [] := by
        apply byteLen_eq_of_suffix (r := s.dropWhile isWhitespace)
        rw [← hu']; exact hb
      subst this
      simp only [List.nil_append] at hu'
      rw [← hu'] at hu hskip ⊢
      cases s with
      | nil => simp [skipM]
      | cons c cs =>
        by_cases hc : c = ';'
        · subst hc
          simp only
          have hv := takeWhile_dropWhile_length (fun c => !(c == '\r' || c == '\n')) cs
          have hs : skipM false (';' :: cs) = skipM false (cs.dropWhile fun c => !(c == '\r' || c == '\n')) := by
            rw [skipM, if_neg (by rw [semi_not_ws]; simp), if_pos rfl, skipM_comment]
          rw [hs]
          cases hd : cs.dropWhile (fun c => !(c == '\r' || c == '\n')) with
          | nil =>
            rw [hd] at hv
            simp only [List.length_nil, List.length_cons, skipM] at hv hu ⊢
            omega
          | cons d ds =>
            rw [hd] at hv
            simp only [List.length_cons] at hv hu hn ⊢
            have := ih (s := d :: ds) (by simp only [List.length_cons]; omega)
            simp only [List.length_cons] at this
            omega
        · have hs : skipM false (c :: cs) = c :: cs := by
            rw [skipM]
            have hw : ¬ isWhitespace c = true := by
              intro hw
              have := congrArg List.length hu'
              rw [List.dropWhile_cons, hw] at this
              simp only [if_true] at this
              have h2 := takeWhile_dropWhile_length isWhitespace cs
              simp only [List.length_cons] at this
              omega
            rw [if_neg hw, if_neg hc]
          rw [hs]
          omega
    · rw [if_neg hb]
      have hlt : (s.dropWhile isWhitespace).length < s.length := by
        rcases Nat.lt_or_ge (s.dropWhile isWhitespace).length s.length with h | h
        · exact h
        · exfalso
          apply hb
          have h0 : s.takeWhile isWhitespace = [] := List.length_eq_zero_iff.mp (by omega)
          conv => rhs; rw [← List.takeWhile_append_dropWhile (p := isWhitespace) (l := s), h0]
          rfl
      have := ih (s := s.dropWhile isWhitespace) (by omega)
      rw [hskip] at this
      omega

theorem cov_ws : Cov ws := fun {s r v} h => by
  rw [ws_ok] at h
  injection h with h
  subst h
  have := wsCost_ge (n := s.length + 1) (s := s) (by omega)
  simp only [ws, prim]
  omega

theorem cov_not {a : Timed α} : Cov (not a) := fun {s r v} h => by
  simp only [not, Nom.not] at h
  split at h
  · cases h
  · injection h with h; subst h; omega
  · cases h

theorem cov_opt {a : Timed α} (ha : Cov a) : Cov (opt a) := fun {s r v} h => by
  simp only [opt, Nom.opt] at h ⊢
  split at h
  · rename_i hr; injection h with h; subst h; exact ha hr
  · injection h with h; subst h; omega
  · cases h

theorem cov_recognize_peek {a : Timed α} : Cov (recognize (peek a)) := fun {s r v} h => by rw [recognize_peek_fin h]; omega

theorem cov_delimited {a : Timed α} {b : Timed β} {c : Timed γ} (ha : Cov a) (hb : Cov b) (hc : Cov c) : Cov (delimited a b c) :=
  cov_bind ha fun _ => cov_bind hb fun v => cov_bind hc fun _ => cov_pure v

theorem manyLoop_cov {p : Timed α} (hp : Cov p) : ∀ n s acc r l, Nom.manyLoop p.run n s acc = .ok r l → s.length ≤ r.length + manyCost p n s := by
  intro n
  induction n with
  | zero => intro s acc r l h; cases h
  | succ n ih =>
    intro s acc r l h
    simp only [manyCost, Nom.manyLoop] at h ⊢
    cases hr : p.run s with
    | fuel => rw [hr] at h; cases h
    | err => rw [hr] at h; injection h with h; subst h; omega
    | ok r' v' =>
      rw [hr] at h
      simp only at h ⊢
      have h1 := hp hr
      by_cases hb : byteLen r' = byteLen s
      · rw [if_pos hb] at h; cases h
      · rw [if_neg hb] at h ⊢
        have := ih _ _ _ _ h
        omega

theorem cov_many1 {p : Timed α} (hp : Cov p) (n : Nat) : Cov (many1 n p) := by
  intro s r v h
  have h : (p.run s).andThen (fun r v => Nom.manyLoop p.run n r [v]) = .ok r v := h
  simp only [many1]
  cases hr : p.run s with
  | fuel => rw [hr] at h; cases h
  | err => rw [hr] at h; cases h
  | ok r' v' =>
    rw [hr] at h
    have h1 := hp hr
    have h2 := manyLoop_cov hp n _ _ _ _ h
    simp only
    omega

theorem cov_xtList {p : Timed α} {d : Timed β} (hp : Cov p) (hd : Cov d) (n : Nat) : Cov (xtList n p d) := by
  have key : ∀ n s acc r l, Nom.xtLoop p.run d.run n s acc = .ok r l → s.length ≤ r.length + xtCost p d n s := by
    intro n
    induction n with
    | zero => intro s acc r l h; cases h
    | succ n ih =>
      intro s acc r l h
      simp only [xtCost, Nom.xtLoop] at h ⊢
      cases hr : p.run s with
      | fuel => rw [hr] at h; cases h
      | err => rw [hr] at h; cases h
      | ok r' v' =>
        rw [hr] at h
        simp only at h ⊢
        have h1 := hp hr
        cases hr2 : d.run r' with
        | fuel => rw [hr2] at h; cases h
        | err => rw [hr2] at h; injection h with h; subst h; simp only; omega
        | ok r2 v2 =>
          rw [hr2] at h
          simp only at h ⊢
          have h2 := hd hr2
          have := ih _ _ _ _ h
          omega
  exact fun {s r v} h => key n s _ _ _ h

theorem cov_nameText (F : Format) : Cov (nameText F) := by
  unfold nameText
  cases h : F.nonterminalDelimiter with
  | some p => obtain ⟨a, b⟩ := p; exact cov_delimited (cov_char _) (cov_takeTill _) (cov_char _)
  | none =>
    intro s r v h
    simp only at h ⊢
    cases hr : Nom.satisfy F.isAlphabetic s with
    | fuel => rw [hr] at h; cases h
    | err => rw [hr] at h; cases h
    | ok r' v' =>
      rw [hr] at h
      have := cov_takeTill (fun c => isWhitespace c || c == ')' || c == ']') (s := s) h
      simp only
      omega

theorem cov_quotedText : Cov quotedText :=
  cov_alt (cov_delimited (cov_char _) (cov_takeUntil _) (cov_char _)) (cov_delimited (cov_char _) (cov_takeUntil _) (cov_char _))

theorem cov_then_ws {a : Timed α} (ha : Cov a) (f : α → β) : Cov (bind a fun v => bind ws fun _ => pure (f v)) :=
  cov_bind ha fun v => cov_bind cov_ws fun _ => cov_pure (f v)

theorem cov_expressionNext (F : Format) : Cov (expressionNext F) := cov_bind (cov_char _) fun _ => cov_bind cov_ws fun _ => cov_pure _

theorem cov_item {p : Timed α} (hp : Cov p) (F : Format) : Cov (terminated p (not (tag F.productionSeparator))) :=
  cov_bind hp fun v => cov_bind cov_not fun _ => cov_pure v

theorem cov_parsedTerm (F : Format) (n : Nat) : Cov (parsedTerm F n) := by
  induction n with
  | zero => intro s r v h; cases h
  | succ n ih =>
    have hb : Cov (parsedAltsWith F n (parsedTerm F n)) := cov_xtList (cov_many1 (cov_item ih F) n) (cov_expressionNext F) n
    have h0 : Cov (alt parsedTerminal (alt (parsedNonterminal F)
        (alt (parsedAnonymousGroup F n (parsedTerm F n)) (parsedOptionalGroup F n (parsedTerm F n))))) :=
      cov_alt (cov_then_ws cov_quotedText _) (cov_alt (cov_then_ws (cov_nameText F) _)
        (cov_alt (cov_then_ws (cov_delimited (cov_char _) hb (cov_char _)) _) (cov_then_ws (cov_delimited (cov_char _) hb (cov_char _)) _)))
    exact fun {s r v} h => h0 h

theorem cov_parsedProdLhs (F : Format) : Cov (parsedProdLhs F) :=
  cov_bind (cov_nameText F) fun nt => cov_bind cov_ws fun _ => cov_bind (cov_tag _) fun _ => cov_bind (cov_opt (cov_char _)) fun _ =>
    cov_bind cov_ws fun _ => cov_pure nt

theorem cov_parsedGrammar (F : Format) (n : Nat) : Cov (parsedGrammar F n) :=
  cov_bind cov_ws fun _ => cov_many1 (cov_bind cov_ws fun _ =>
    cov_bind (cov_parsedProdLhs F) fun _ =>
    cov_bind (cov_xtList (cov_many1 (cov_item (cov_parsedTerm F n) F) n) (cov_expressionNext F) n) fun _ =>
    cov_bind (cov_alt cov_recognize_peek cov_recognize_peek) fun _ => cov_pure _) n

theorem cov_term (F : Format) : Cov (term F) := cov_alt (cov_then_ws cov_quotedText _) (cov_then_ws (cov_nameText F) _)

theorem cov_prodLhs (F : Format) : Cov (prodLhs F) :=
  cov_bind (cov_then_ws (cov_nameText F) _) fun nt => cov_bind (cov_tag _) fun _ => cov_bind (cov_opt (cov_char _)) fun _ =>
    cov_bind cov_ws fun _ => cov_pure nt

theorem cov_productionEnd (F : Format) : Cov (productionEnd F) := by
  unfold productionEnd
  split <;> exact cov_alt cov_recognize_peek cov_recognize_peek

theorem cov_production (F : Format) (n : Nat) : Cov (production F n) :=
  cov_bind (cov_prodLhs F) fun _ =>
  cov_bind (cov_xtList (cov_bind (cov_many1 (cov_item (cov_term F) F) n) fun _ => cov_pure _) (cov_expressionNext F) n) fun _ =>
  cov_bind (cov_productionEnd F) fun _ => cov_pure _

theorem cov_plainGrammar (F : Format) (n : Nat) : Cov (plainGrammar F n) :=
  cov_bind cov_ws fun _ => cov_bind (cov_production F n) fun _ =>
    cov_bind (cov_many1 (cov_bind cov_ws fun _ => cov_production F n) n) fun _ => cov_pure _

theorem cov_allConsuming {a : Timed α} (ha : Cov a) {s r v} (h : (allConsuming a).run s = .ok r v) :
    s.length < r.length + (allConsuming a).cost s := by
  obtain ⟨rfl, h'⟩ := allConsuming_ok.mp (show Nom.allConsuming a.run s = .ok r v from h)
  have := ha h'
  simp only [allConsuming, h']
  omega

theorem grammarComplete_cov (F : Format) {s r v} (h : (grammarComplete F).run s = .ok r v) :
    s.length < r.length + (grammarComplete F).cost s := by
  have h : grammarCompleteFuel F (s.length + 1) s = .ok r v := h
  have hx : ∀ {r v}, ((Bnf.parsedGrammarComplete F (s.length + 1) s).andThen fun s parsed =>
      match normalizeParsedGrammar parsed with
      | none => .fuel
      | some g => .ok s g) = .ok r v → s.length < r.length + (parsedGrammarComplete F (s.length + 1)).cost s := by
    intro r v h
    obtain ⟨r', v', h1, h2⟩ := Res.andThen_ok.mp h
    rw [← parsedGrammarComplete_run] at h1
    have := cov_allConsuming (cov_parsedGrammar F (s.length + 1)) h1
    have hr : r' = r := by
      split at h2
      · cases h2
      · injection h2
    subst hr
    exact this
  simp only [grammarCompleteFuel] at h
  simp only [grammarComplete]
  by_cases he : grammarHasExtendedSyntax s = true
  · rw [if_pos he] at h ⊢
    have := hx h
    omega
  · rw [if_neg he] at h ⊢
    have hpr : (allConsuming (plainGrammar F (s.length + 1))).run s = Nom.allConsuming (Bnf.plainGrammar F (s.length + 1)) s := by
      simp only [allConsuming, plainGrammar_run]
    cases hp : Nom.allConsuming (Bnf.plainGrammar F (s.length + 1)) s with
    | fuel => rw [hp] at h; cases h
    | err =>
      rw [hp] at h
      rw [hpr, hp]
      have := hx h
      simp only
      omega
    | ok r' v' =>
      rw [hp] at h
      injection h with h
      subst h
      have := cov_allConsuming (cov_plainGrammar F (s.length + 1)) (hpr.trans hp)
      omega

end Bnf.Timed

namespace Bnf
open Bnf.Spec

/-! ## Generated names -/

theorem counter_le (D : List Str) (k : Nat) : k ≤ freeBelow D k + D.length := by
  have h1 : ((List.range k).filter fun j => anonName j ∈ D).length ≤ D.length := by
    have hnd : (((List.range k).filter fun j => anonName j ∈ D).map anonName).Nodup := by
      refine List.Nodup.map ?_ (List.nodup_range.filter _)
      intro a b hab
      exact anonName_inj hab
    have hsub : (((List.range k).filter fun j => anonName j ∈ D).map anonName) ⊆ D := by
      intro x hx
      obtain ⟨j, hj, rfl⟩ := List.mem_map.mp hx
      exact of_decide_eq_true (List.mem_filter.mp hj).2
    have := (hnd.subperm hsub).length_le
    simpa using this
  have h2 := List.length_eq_length_filter_add (l := List.range k) (fun j => decide (anonName j ∈ D))
  rw [List.length_range] at h2
  have h3 : (List.filter (fun x => !decide (anonName x ∈ D)) (List.range k)).length = freeBelow D k := by
    unfold freeBelow
    congr 2
    funext j
    simp
  omega

theorem normalize_tries {pg : ParsedGrammar} {out st} (h : lowerProds pg ⟨pg.map (·.lhs), 0, []⟩ = some (out, st)) :
    st.counter ≤ pg.length + brackets pg := by
  have hi : NamesInv (pg.map (·.lhs)) ⟨pg.map (·.lhs), 0, []⟩ 0 := ⟨by simp, rfl⟩
  have hn := lowerProds_names hi h
  have := counter_le (pg.map (·.lhs)) st.counter
  rw [hn.count, List.length_map] at this
  omega

end Bnf

namespace Bnf
open Bnf.Spec

/-- Groups and optionals in an item. -/
def itemBrackets : Item → Nat
  | .term t => t.brackets
  | .terms ts => termsBrackets ts
  | .alts as => altsBrackets as

theorem Spec.Layout.length_le {s r : Str} (h : Layout s r) : r.length ≤ s.length := by
  obtain ⟨u, rfl⟩ := h.suffix
  simp

theorem name_length {F : Format} {u s r : Str} (h : Name F u s r) : r.length < s.length := by
  unfold Name at h
  split at h
  · obtain ⟨rfl, _⟩ := h
    simp; omega
  · obtain ⟨rfl, ⟨c, cs, rfl, _⟩, _⟩ := h
    simp; omega

theorem syn_brackets {F : Format} {i : Item} {s r : Str} (h : Syn F i s r) : itemBrackets i + r.length ≤ s.length := by
  induction h with
  | @terminal u s s' r hq hl =>
    obtain ⟨q, _, _, rfl⟩ := hq
    have := hl.length_le
    simp [itemBrackets, ParsedTerm.brackets]; omega
  | nonterminal hn hl =>
    have := hl.length_le
    have := name_length hn
    simp [itemBrackets, ParsedTerm.brackets]; omega
  | group _ hl ih =>
    have := hl.length_le
    simp [itemBrackets, ParsedTerm.brackets] at ih ⊢; omega
  | optional _ hl ih =>
    have := hl.length_le
    simp [itemBrackets, ParsedTerm.brackets] at ih ⊢; omega
  | one _ ih => simpa [itemBrackets, termsBrackets] using ih
  | more _ _ ih1 ih2 => simp [itemBrackets, termsBrackets] at ih1 ih2 ⊢; omega
  | lastAlt _ ih => simpa [itemBrackets, altsBrackets] using ih
  | nextAlt _ hl _ ih1 ih2 =>
    have := hl.length_le
    simp [itemBrackets, altsBrackets] at ih1 ih2 ⊢; omega

theorem lhs_length {F : Format} {u s r : Str} (h : Lhs F u s r) : r.length < s.length := by
  obtain ⟨s1, s2, s3, h1, h2, h3, h4⟩ := h
  have := name_length h1
  have := h2.length_le
  have := h4.length_le
  simp only [List.length_append] at *
  rcases h3 with rfl | rfl
  · omega
  · simp only [List.length_cons] at *; omega

theorem prods_brackets {F : Format} {pg : ParsedGrammar} {s r : Str} (h : Prods F pg s r) : pg.length + brackets pg + r.length ≤ s.length := by
  induction h with
  | one hp =>
    obtain ⟨s1, h1, h2⟩ := hp
    have := lhs_length h1
    have := syn_brackets h2
    simp [itemBrackets, brackets] at *; omega
  | more hp _ ih =>
    obtain ⟨s1, h1, h2⟩ := hp
    have := lhs_length h1
    have := syn_brackets h2
    simp [itemBrackets, brackets] at *; omega

theorem text_brackets {F : Format} {pg : ParsedGrammar} {s : Str} (h : GrammarText F pg s) : pg.length + brackets pg ≤ s.length := by
  obtain ⟨s1, h1, h2⟩ := h
  have := h1.length_le
  have := prods_brackets h2
  omega

/-! ## Nested brackets: a text for every depth -/

namespace Timed

/-- `<s>::=` followed by `k` opening brackets. -/
def nestedText (k : Nat) (rest : Str) : Str := ['<', 's', '>', ':', ':', '='] ++ (List.replicate k '(' ++ rest)

theorem nested_lhs (t : Str) : (parsedProdLhs BNF).run (['<', 's', '>', ':', ':', '='] ++ '(' :: t) = .ok ('(' :: t) ['s'] := by
  have hw1 : skipM false (':' :: ':' :: '=' :: '(' :: t) = ':' :: ':' :: '=' :: '(' :: t := skipM_of_tight (tight_cons (by decide) (by decide))
  have hw2 : skipM false ('(' :: t) = '(' :: t := skipM_of_tight (tight_cons (by decide) (by decide))
  have h1 : (nameText BNF).run (['<', 's', '>', ':', ':', '='] ++ '(' :: t) = .ok (':' :: ':' :: '=' :: '(' :: t) ['s'] := by
    simp [nameText, BNF, delimited, bind, char, prim, Nom.char, takeTill, Nom.takeTill, Res.andThen, pure]
  have h2 : (tag BNF.productionSeparator).run (':' :: ':' :: '=' :: '(' :: t) = .ok ('(' :: t) () :=
    Nom.tag_ok.mpr (by simp [BNF])
  have h3 : (opt (char BNF.alternativeSeparator)).run ('(' :: t) = .ok ('(' :: t) none := by
    simp [opt, Nom.opt, char, prim, BNF, Nom.char]
  show (bind _ _).run _ = _
  simp only [bind, h1, Res.andThen_of_ok, ws_ok, hw1, h2, h3, hw2, pure]

theorem nested_parsed (k : Nat) (rest : Str) (m : Nat) (hm : k + 1 ≤ m) :
    k + 2 ≤ (parsedGrammar BNF (m + 1)).depth (nestedText (k + 1) rest) := by
  have hskip : skipM false (nestedText (k + 1) rest) = nestedText (k + 1) rest := skipM_of_tight (tight_cons (by decide) (by decide))
  have h0 := parsedTerm_depth_ge BNF_regular (k + 1) rest (m + 1) (by omega)
  have h1 := altsWith_depth_ge BNF m (parsedTerm BNF (m + 1)) (List.replicate (k + 1) '(' ++ rest)
  have hl : (parsedProdLhs BNF).run (nestedText (k + 1) rest) = .ok (List.replicate (k + 1) '(' ++ rest) ['s'] := by
    rw [nestedText, List.replicate_succ, List.cons_append]
    exact nested_lhs (List.replicate k '(' ++ rest)
  have hw : ws.run (nestedText (k + 1) rest) = .ok (nestedText (k + 1) rest) () := by rw [ws_ok, hskip]
  generalize nestedText (k + 1) rest = t at hw hl ⊢
  generalize List.replicate (k + 1) '(' ++ rest = u at h0 h1 hl
  have h2 : (parsedAltsWith BNF (m + 1) (parsedTerm BNF (m + 1))).depth u ≤ (parsedProduction BNF (m + 1)).depth t := by
    refine Nat.le_trans ?_ (bind_depth_ok hl)
    exact bind_depth_ge _
  have h3 : (parsedProduction BNF (m + 1)).depth t ≤ (preceded ws (parsedProduction BNF (m + 1))).depth t :=
    bind_depth_ok (f := fun _ => parsedProduction BNF (m + 1)) hw
  have h4 : (preceded ws (parsedProduction BNF (m + 1))).depth t ≤ (parsedGrammar BNF (m + 1)).depth t :=
    Nat.le_trans (many1_depth_ge (m + 1) _) (bind_depth_ok (f := fun _ => many1 (m + 1) (preceded ws (parsedProduction BNF (m + 1)))) hw)
  omega

theorem nested_depth (k : Nat) (rest : Str) : k + 2 ≤ (grammarComplete BNF).depth (nestedText (k + 1) rest) := by
  have hext : grammarHasExtendedSyntax (nestedText (k + 1) rest) = true := by
    simp [grammarHasExtendedSyntax, nestedText, List.replicate_succ, extendedScan]
  have hlen : k + 6 < (nestedText (k + 1) rest).length := by simp [nestedText]; omega
  have h := nested_parsed k rest (nestedText (k + 1) rest).length (by omega)
  simp only [grammarComplete, hext, if_true, parsedGrammarComplete, allConsuming]
  exact h

/-- `k` nested groups around a terminal. -/
def nestedTerm : Nat → ParsedTerm
  | 0 => .simple (.terminal ['x'])
  | k + 1 => .group [[nestedTerm k]]

theorem nested_syn (k : Nat) (r : Str) (hr : Tight r) : Syn BNF (.term (nestedTerm k))
    (List.replicate k '(' ++ (['\'', 'x', '\''] ++ (List.replicate k ')' ++ r))) r := by
  induction k generalizing r with
  | zero => exact .terminal ⟨'\'', .inr rfl, by decide, rfl⟩ .nil
  | succ k ih =>
    have h := ih (')' :: r) (tight_cons (by decide) (by decide))
    have e : List.replicate (k + 1) ')' ++ r = List.replicate k ')' ++ ')' :: r := by
      rw [List.replicate_succ', List.append_assoc]; rfl
    rw [e, List.replicate_succ, List.cons_append]
    exact .group (.lastAlt (.one h)) .nil

theorem nested_text (k : Nat) : GrammarText BNF [⟨['s'], [[nestedTerm k]]⟩] (nestedText k (['\'', 'x', '\''] ++ List.replicate k ')')) := by
  have h := nested_syn k [] Tight.nil
  rw [List.append_nil] at h
  refine ⟨_, .nil, .one ⟨_, ⟨[':', ':', '='] ++ _, _, _, ⟨rfl, by simp⟩, .nil, .inl rfl, .nil⟩, .lastAlt (.one h)⟩⟩

end Timed
end Bnf
