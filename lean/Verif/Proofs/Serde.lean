import Verif.Spec.Serde

/-! # Reading and writing JSON -/

set_option autoImplicit false

namespace Bnf
open Spec

/-! ## White space -/

theorem skip_blank {a : Str} (h : Blank a) (s : Str) : skipJsonSpace (a ++ s) = skipJsonSpace s := by
  induction a with
  | nil => rfl
  | cons c a ih =>
    have hc : isJsonSpace c = true := by
      rcases h c (by simp) with rfl | rfl | rfl | rfl <;> rfl
    rw [List.cons_append, skipJsonSpace, List.dropWhile_cons, if_pos hc]
    exact ih (fun c hc => h c (by simp [hc]))

theorem skip_solid {c : Char} (h : isJsonSpace c = false) (s : Str) : skipJsonSpace (c :: s) = c :: s := by
  rw [skipJsonSpace, List.dropWhile_cons, if_neg (by simp [h])]

theorem blank_nil : Blank [] := by simp [Blank]

theorem blank_end {a : Str} (h : Blank a) : skipJsonSpace a = [] := by
  have := skip_blank h []
  simpa [skipJsonSpace] using this

/-! ## Strings -/

theorem hexDigit_value {h : Char} {v : Nat} (hd : HexDigit h v) : hexValue h = some v := by
  have h1 : ∀ v < 10, hexValue (Char.ofNat (48 + v)) = some v := by decide
  have h2 : ∀ v < 16, 10 ≤ v → hexValue (Char.ofNat (87 + v)) = some v := by decide
  have h3 : ∀ v < 16, 10 ≤ v → hexValue (Char.ofNat (55 + v)) = some v := by decide
  rcases hd with ⟨hv, rfl⟩ | ⟨hv, hv', rfl | rfl⟩
  · exact h1 v hv
  · exact h2 v hv' hv
  · exact h3 v hv' hv

theorem hexFour_number {h : Str} {v : Nat} (hn : HexNumber h v) (r : Str) : hexFour (h ++ r) = some (v, r) := by
  obtain ⟨a, b, c, d, p, q, x, t, rfl, ha, hb, hc, hd, rfl⟩ := hn
  simp only [List.cons_append, List.nil_append, hexFour, hexDigit_value ha, hexDigit_value hb, hexDigit_value hc, hexDigit_value hd]
  simp only [Option.some.injEq, Prod.mk.injEq, and_true]
  omega

theorem char_range (c : Char) : c.toNat < 0xD800 ∨ 0xDFFF < c.toNat := by
  have := c.valid
  rcases this with h | ⟨h, _⟩
  · exact .inl h
  · exact .inr h

/-- What reading one written character does. -/
theorem readChars_char {c : Char} {x : Str} (h : JsonChar c x) (n : Nat) (r : Str) :
    readChars (n + 1) (x ++ r) = (readChars n r).map fun y => (c :: y.1, y.2) := by
  cases h with
  | plain h1 h2 h3 =>
    simp only [List.cons_append, List.nil_append, readChars]
    rw [if_neg h2, if_neg h3, if_neg (by omega)]
  | quote => rfl
  | backslash => rfl
  | slash => rfl
  | backspace => rfl
  | formFeed => rfl
  | newline => rfl
  | «return» => rfl
  | tab => rfl
  | @hex _ h hn =>
    simp only [List.cons_append, readChars]
    rw [if_neg (by decide), if_pos trivial]
    simp only [readEscape, hexFour_number hn]
    rw [if_pos (char_range c)]
    simp [Char.ofNat_toNat]
  | @surrogates _ h l v w h1 h2 h3 h4 h5 =>
    simp only [List.cons_append, List.append_assoc, readChars]
    rw [if_neg (by decide), if_pos trivial]
    simp only [readEscape, hexFour_number h1]
    rw [if_neg (by omega), if_pos (by omega)]
    simp only [hexFour_number h2]
    rw [if_pos (by omega)]
    have : 0x10000 + (0xD800 + v - 0xD800) * 0x400 + (0xDC00 + w - 0xDC00) = c.toNat := by omega
    simp only [this, Char.ofNat_toNat]

theorem jsonChar_pos {c : Char} {x : Str} (h : JsonChar c x) : 0 < x.length := by
  cases h <;> simp

theorem readChars_chars {s t : Str} (h : JsonChars s t) : ∀ (n : Nat) (r : Str), t.length < n → readChars n (t ++ '"' :: r) = some (s, r) := by
  induction h with
  | nil =>
    intro n r hn
    obtain ⟨m, rfl⟩ : ∃ m, n = m + 1 := ⟨n - 1, by simp at hn; omega⟩
    simp [readChars]
  | @cons c x s t hc _ ih =>
    intro n r hn
    have := jsonChar_pos hc
    simp only [List.length_append] at hn
    obtain ⟨m, rfl⟩ : ∃ m, n = m + 1 := ⟨n - 1, by omega⟩
    rw [List.append_assoc, readChars_char hc, ih m r (by omega)]
    rfl

theorem readChars_here {s t : Str} (h : JsonChars s t) (r : Str) : readChars ((t ++ '"' :: r).length + 1) (t ++ '"' :: r) = some (s, r) :=
  readChars_chars h _ _ (by simp; omega)

/-! ## Numbers -/

/-- Not a continuation of a number. -/
def Stops (r : Str) : Prop := ∀ c s, r = c :: s → c.isDigit = false ∧ c ≠ '.' ∧ c ≠ 'e' ∧ c ≠ 'E'

theorem stops_nil : Stops [] := by intro c s h; cases h

theorem stops_comma {s : Str} : Stops (',' :: s) := by rintro c s h; injection h with h; subst h; decide
theorem stops_bracket {s : Str} : Stops (']' :: s) := by rintro c s h; injection h with h; subst h; decide
theorem stops_brace {s : Str} : Stops ('}' :: s) := by rintro c s h; injection h with h; subst h; decide

theorem stops_blank {a s : Str} (ha : Blank a) (hs : Stops s) : Stops (a ++ s) := by
  cases a with
  | nil => exact hs
  | cons c a =>
    intro d t h
    injection h with h _
    subst h
    rcases ha c (by simp) with rfl | rfl | rfl | rfl <;> decide

/-- Digits at the front. -/
theorem readDigits_digits {d r : Str} (hd : Digits d) (hr : ∀ c s, r = c :: s → c.isDigit = false) : readDigits (d ++ r) = some r := by
  have drop : ∀ d : Str, (∀ c ∈ d, c.isDigit = true) → (d ++ r).dropWhile Char.isDigit = r := by
    intro d
    induction d with
    | nil =>
      intro _
      cases r with
      | nil => rfl
      | cons c s => rw [List.nil_append, List.dropWhile_cons, if_neg (by simp [hr c s rfl])]
    | cons c d ih =>
      intro h
      rw [List.cons_append, List.dropWhile_cons, if_pos (h c (by simp))]
      exact ih (fun x hx => h x (by simp [hx]))
  obtain ⟨h1, h2⟩ := hd
  cases d with
  | nil => exact absurd rfl h1
  | cons c d =>
    rw [List.cons_append, readDigits, if_pos (h2 c (by simp)), drop d (fun x hx => h2 x (by simp [hx]))]

theorem readDigits_sound {s r : Str} (h : readDigits s = some r) : ∃ d, Digits d ∧ s = d ++ r := by
  cases s with
  | nil => cases h
  | cons c s =>
    rw [readDigits] at h
    split at h
    · rename_i hc
      injection h with h
      refine ⟨c :: s.takeWhile Char.isDigit, ⟨by simp, ?_⟩, by rw [← h, List.cons_append, List.takeWhile_append_dropWhile]⟩
      intro x hx
      rcases List.mem_cons.1 hx with rfl | hx
      · exact hc
      · have := List.all_takeWhile (p := Char.isDigit) (l := s)
        exact List.all_eq_true.1 this x hx
    · cases h

/-- The part of a number before the fraction. -/
theorem readInteger_spec {i r : Str} (hi : i = ['0'] ∨ Digits i ∧ i.head? ≠ some '0') (hr : ∀ c s, r = c :: s → c.isDigit = false) :
    readInteger (i ++ r) = some r := by
  rcases hi with rfl | ⟨hd, h0⟩
  · cases r with
    | nil => rfl
    | cons c s => simp [readInteger, hr c s rfl]
  · have := readDigits_digits hd hr
    cases i with
    | nil => exact absurd rfl hd.1
    | cons c i =>
      rw [List.cons_append] at this ⊢
      unfold readInteger
      split
      · rename_i h; injection h with h; subst h; simp at h0
      · exact this

theorem readInteger_sound {s r : Str} (h : readInteger s = some r) : ∃ i, (i = ['0'] ∨ Digits i ∧ i.head? ≠ some '0') ∧ s = i ++ r := by
  unfold readInteger at h
  split at h
  · split at h
    · split at h
      · cases h
      · injection h with h; exact ⟨['0'], .inl rfl, by rw [← h]; rfl⟩
    · injection h with h; exact ⟨['0'], .inl rfl, by rw [← h]; rfl⟩
  · rename_i h0
    obtain ⟨d, hd, rfl⟩ := readDigits_sound h
    refine ⟨d, .inr ⟨hd, ?_⟩, rfl⟩
    cases d with
    | nil => exact absurd rfl hd.1
    | cons c d =>
      intro hc
      simp at hc
      subst hc
      exact h0 (d ++ r) rfl

theorem readFraction_spec {f r : Str} (hf : f = [] ∨ ∃ d, Digits d ∧ f = '.' :: d) (hr : ∀ c s, r = c :: s → c.isDigit = false ∧ c ≠ '.') :
    readFraction (f ++ r) = some r := by
  rcases hf with rfl | ⟨d, hd, rfl⟩
  · rw [List.nil_append]
    unfold readFraction
    split
    · exact absurd rfl (hr _ _ rfl).2
    · rfl
  · rw [List.cons_append]
    exact readDigits_digits hd (fun c s h => (hr c s h).1)

theorem readFraction_sound {s r : Str} (h : readFraction s = some r) : ∃ f, (f = [] ∨ ∃ d, Digits d ∧ f = '.' :: d) ∧ s = f ++ r := by
  unfold readFraction at h
  split at h
  · obtain ⟨d, hd, rfl⟩ := readDigits_sound h
    exact ⟨'.' :: d, .inr ⟨d, hd, rfl⟩, rfl⟩
  · injection h with h
    exact ⟨[], .inl rfl, by simp [h]⟩

/-- An exponent, possibly none. -/
def Exponent (e : Str) : Prop := e = [] ∨ ∃ c g d, (c = 'e' ∨ c = 'E') ∧ (g = [] ∨ g = ['+'] ∨ g = ['-']) ∧ Digits d ∧ e = c :: g ++ d

theorem readExponent_spec {e r : Str} (he : Exponent e) (hr : Stops r) : readExponent (e ++ r) = some r := by
  rcases he with rfl | ⟨c, g, d, hc, hg, hd, rfl⟩
  · rw [List.nil_append]
    cases r with
    | nil => rfl
    | cons c s =>
      have := hr c s rfl
      simp [readExponent, this.2.2.1, this.2.2.2]
  · have hread := readDigits_digits hd (r := r) (fun c s h => (hr c s h).1)
    rcases hg with rfl | rfl | rfl
    · obtain ⟨h1, h2⟩ := hd
      cases d with
      | nil => exact absurd rfl h1
      | cons x d =>
        have hx := h2 x (by simp)
        have : ¬ (x = '+' ∨ x = '-') := by rintro (rfl | rfl) <;> simp [Char.isDigit] at hx
        simp only [List.cons_append, List.nil_append, readExponent] at hread ⊢
        rw [if_pos hc, if_neg this, hread]
    · simp only [List.cons_append, List.nil_append, readExponent]
      rw [if_pos hc, if_pos (by decide), hread]
    · simp only [List.cons_append, List.nil_append, readExponent]
      rw [if_pos hc, if_pos (by decide), hread]

theorem readExponent_sound {s r : Str} (h : readExponent s = some r) : ∃ e, Exponent e ∧ s = e ++ r := by
  unfold readExponent at h
  split at h
  · rename_i c s'
    split at h
    · rename_i hc
      split at h
      · rename_i d s''
        split at h
        · rename_i hd
          obtain ⟨x, hx, rfl⟩ := readDigits_sound h
          refine ⟨c :: [d] ++ x, .inr ⟨c, [d], x, hc, ?_, hx, rfl⟩, by simp⟩
          rcases hd with rfl | rfl
          · exact .inr (.inl rfl)
          · exact .inr (.inr rfl)
        · obtain ⟨x, hx, hs⟩ := readDigits_sound h
          exact ⟨c :: [] ++ x, .inr ⟨c, [], x, hc, .inl rfl, hx, rfl⟩, by simp [hs]⟩
      · cases h
    · injection h with h
      exact ⟨[], .inl rfl, by simp [h]⟩
  · injection h with h
    exact ⟨[], .inl rfl, by simp [h]⟩

theorem exponent_stops {e r : Str} (he : Exponent e) (hr : Stops r) : ∀ c s, e ++ r = c :: s → c.isDigit = false ∧ c ≠ '.' := by
  rcases he with rfl | ⟨c, g, d, hc, _, _, rfl⟩
  · intro c s h; exact ⟨(hr c s h).1, (hr c s h).2.1⟩
  · intro x s h
    simp only [List.cons_append, List.cons.injEq] at h
    rw [← h.1]
    rcases hc with rfl | rfl <;> decide

theorem fraction_stops {f r : Str} (hf : f = [] ∨ ∃ d, Digits d ∧ f = '.' :: d) (hr : ∀ c s, r = c :: s → c.isDigit = false ∧ c ≠ '.') :
    ∀ c s, f ++ r = c :: s → c.isDigit = false := by
  rcases hf with rfl | ⟨d, _, rfl⟩
  · intro c s h; exact (hr c s h).1
  · intro x s h
    simp only [List.cons_append, List.cons.injEq] at h
    rw [← h.1]
    decide

theorem readNumber_number {s r : Str} (h : JsonNumber s) (hr : Stops r) : readNumber (s ++ r) = some r := by
  obtain ⟨m, i, f, e, rfl, hm, hi, hf, he⟩ := h
  have h3 := readExponent_spec he hr
  have h2 := readFraction_spec hf (exponent_stops he hr)
  have h1 := readInteger_spec hi (fraction_stops hf (exponent_stops he hr))
  rw [List.append_assoc] at *
  unfold readNumber
  rcases hm with rfl | rfl
  · have hne : ∀ x, i ++ (f ++ (e ++ r)) ≠ '-' :: x := by
      rcases hi with rfl | ⟨hd, _⟩
      · simp
      · cases i with
        | nil => exact absurd rfl hd.1
        | cons c i =>
          intro x hx
          injection hx with hx
          subst hx
          have := hd.2 '-' (by simp)
          simp [Char.isDigit] at this
    simp only [List.nil_append, List.append_assoc, h1, h2, h3]
  · simp only [List.cons_append, List.nil_append, List.append_assoc, h1, h2, h3]

theorem minus_sound (s : Str) : ∃ m, (m = [] ∨ m = ['-']) ∧ s = m ++ (match s with | '-' :: s => s | s => s) := by
  split
  · exact ⟨['-'], .inr rfl, rfl⟩
  · exact ⟨[], .inl rfl, rfl⟩

theorem readNumber_sound {s r : Str} (h : readNumber s = some r) : ∃ t, JsonNumber t ∧ s = t ++ r := by
  obtain ⟨m, hm, hs⟩ := minus_sound s
  unfold readNumber at h
  simp only at h
  split at h
  · cases h
  rename_i s1 h1
  split at h
  · cases h
  rename_i s2 h2
  obtain ⟨i, hi, h3⟩ := readInteger_sound h1
  obtain ⟨f, hf, rfl⟩ := readFraction_sound h2
  obtain ⟨e, he, rfl⟩ := readExponent_sound h
  exact ⟨m ++ i ++ f ++ e, ⟨m, i, f, e, rfl, hm, hi, hf, he⟩, hs.trans ((congrArg (m ++ ·) h3).trans (by simp))⟩

theorem number_head {s : Str} (h : JsonNumber s) : ∃ c t, s = c :: t ∧ (c = '-' ∨ c.isDigit = true) := by
  obtain ⟨m, i, f, e, rfl, hm, hi, hf, he⟩ := h
  rcases hm with rfl | rfl
  · rcases hi with rfl | ⟨hd, _⟩
    · exact ⟨'0', _, rfl, .inr rfl⟩
    · cases i with
      | nil => exact absurd rfl hd.1
      | cons c i => exact ⟨c, _, rfl, .inr (hd.2 c (by simp))⟩
  · exact ⟨'-', _, rfl, .inl rfl⟩

theorem digit_solid {c : Char} (h : c = '-' ∨ c.isDigit = true) :
    isJsonSpace c = false ∧ c ≠ ']' ∧ c ≠ '}' ∧ c ≠ '"' ∧ c ≠ '[' ∧ c ≠ '{' ∧ c ≠ 'n' ∧ c ≠ 't' ∧ c ≠ 'f' := by
  refine ⟨?_, ?_, ?_, ?_, ?_, ?_, ?_, ?_, ?_⟩
  · cases hs : isJsonSpace c with
    | false => rfl
    | true =>
      simp only [isJsonSpace, Bool.or_eq_true, beq_iff_eq] at hs
      rcases hs with ((rfl | rfl) | rfl) | rfl <;> simp [Char.isDigit] at h
  all_goals
    rintro rfl
    simp [Char.isDigit] at h

/-! ## Values -/

/-- Values begin with a character that is neither white space nor a closing bracket. -/
theorem value_head {j : Json} {t : Str} (h : JsonValue j t) : ∃ c s, t = c :: s ∧ isJsonSpace c = false ∧ c ≠ ']' ∧ c ≠ '}' := by
  cases h with
  | num h =>
    obtain ⟨c, t, rfl, hc⟩ := number_head h
    have := digit_solid hc
    exact ⟨c, t, rfl, this.1, this.2.1, this.2.2.1⟩
  | _ => exact ⟨_, _, rfl, by decide, by decide, by decide⟩

theorem elements_head {l : List Json} {t : Str} (h : JsonElements l t) (r : Str) : ∃ c s, skipJsonSpace (t ++ r) = c :: s ∧ c ≠ ']' := by
  cases h with
  | @one j a t b ha hv _ =>
    obtain ⟨c, s, rfl, h1, h2, _⟩ := value_head hv
    exact ⟨c, s ++ (b ++ r), by simp only [List.append_assoc, skip_blank ha, List.cons_append, skip_solid h1], h2⟩
  | @more j l a t b u ha hv _ _ =>
    obtain ⟨c, s, rfl, h1, h2, _⟩ := value_head hv
    exact ⟨c, s ++ (b ++ ',' :: (u ++ r)), by simp only [List.append_assoc, skip_blank ha, List.cons_append, skip_solid h1], h2⟩

theorem members_head {l : List (Str × Json)} {t : Str} (h : JsonMembers l t) (r : Str) : ∃ c s, skipJsonSpace (t ++ r) = c :: s ∧ c ≠ '}' := by
  have hq : isJsonSpace '"' = false := rfl
  cases h with
  | one ha _ _ _ _ _ =>
    simp only [List.append_assoc, skip_blank ha, List.cons_append, skip_solid hq]
    exact ⟨'"', _, rfl, by decide⟩
  | more ha _ _ _ _ _ _ =>
    simp only [List.append_assoc, skip_blank ha, List.cons_append, skip_solid hq]
    exact ⟨'"', _, rfl, by decide⟩

mutual
theorem readValue_value {j : Json} {t : Str} (h : JsonValue j t) : ∀ (n : Nat) (a r : Str), Blank a → Stops r → 2 * t.length < n →
    readValue n (a ++ (t ++ r)) = some (j, r) := by
  intro n a r ha hr hn
  obtain ⟨m, rfl⟩ : ∃ m, n = m + 1 := ⟨n - 1, by omega⟩
  cases h with
  | null => rw [readValue, skip_blank ha]; rfl
  | true => rw [readValue, skip_blank ha]; rfl
  | false => rw [readValue, skip_blank ha]; rfl
  | num hnum =>
    have hread := readNumber_number hnum hr
    obtain ⟨c, s, rfl, hc⟩ := number_head hnum
    obtain ⟨h1, _, _, h2, h3, h4, h5, h6, h7⟩ := digit_solid hc
    rw [readValue, skip_blank ha]
    rw [List.cons_append] at hread ⊢
    rw [skip_solid h1]
    simp only [h2, h3, h4, if_false]
    split
    · exact absurd rfl h5
    · exact absurd rfl h6
    · exact absurd rfl h7
    · rw [hread]; rfl
  | @str s t hc =>
    rw [readValue, skip_blank ha]
    simp only [List.cons_append, List.append_assoc, List.nil_append]
    rw [skip_solid rfl]
    simp only [if_true, readChars_here hc, Option.map_some]
  | @emptyArr b hb =>
    rw [readValue, skip_blank ha]
    simp only [List.cons_append, List.append_assoc, List.nil_append]
    rw [skip_solid rfl]
    simp only [(by decide : ¬ '[' = '"'), if_false, if_true]
    rw [skip_blank hb, skip_solid rfl]
    rfl
  | @arr l t hl =>
    rw [readValue, skip_blank ha]
    simp only [List.cons_append, List.append_assoc, List.nil_append]
    rw [skip_solid rfl]
    simp only [(by decide : ¬ '[' = '"'), if_false, if_true]
    obtain ⟨c, s, h1, h2⟩ := elements_head hl (']' :: r)
    have := readElements_elements hl m r (by simp at hn; omega)
    rw [h1]
    split
    · rename_i h3; injection h3 with h3 _; exact absurd h3 h2
    · rw [this]; rfl
  | @emptyObj b hb =>
    rw [readValue, skip_blank ha]
    simp only [List.cons_append, List.append_assoc, List.nil_append]
    rw [skip_solid rfl]
    simp only [(by decide : ¬ '{' = '"'), (by decide : ¬ '{' = '['), if_false, if_true]
    rw [skip_blank hb, skip_solid rfl]
    rfl
  | @obj l t hl =>
    rw [readValue, skip_blank ha]
    simp only [List.cons_append, List.append_assoc, List.nil_append]
    rw [skip_solid rfl]
    simp only [(by decide : ¬ '{' = '"'), (by decide : ¬ '{' = '['), if_false, if_true]
    obtain ⟨c, s, h1, h2⟩ := members_head hl ('}' :: r)
    have := readMembers_members hl m r (by simp at hn; omega)
    rw [h1]
    split
    · rename_i h3; injection h3 with h3 _; exact absurd h3 h2
    · rw [this]; rfl

theorem readElements_elements {l : List Json} {t : Str} (h : JsonElements l t) : ∀ (n : Nat) (r : Str), 2 * t.length + 1 < n →
    readElements n (t ++ ']' :: r) = some (l, r) := by
  intro n r hn
  obtain ⟨m, rfl⟩ : ∃ m, n = m + 1 := ⟨n - 1, by omega⟩
  cases h with
  | @one j a t b ha hv hb =>
    simp only [List.length_append] at hn
    have := readValue_value hv m a (b ++ ']' :: r) ha (stops_blank hb stops_bracket) (by omega)
    rw [readElements, List.append_assoc, List.append_assoc, this]
    simp only [skip_blank hb]
    rw [skip_solid rfl]
    rfl
  | @more j l a t b u ha hv hb hl =>
    simp only [List.length_append, List.length_cons] at hn
    have h1 := readValue_value hv m a (b ++ ',' :: (u ++ ']' :: r)) ha (stops_blank hb stops_comma) (by omega)
    have h2 := readElements_elements hl m r (by omega)
    rw [readElements]
    simp only [List.append_assoc, List.cons_append] at h1 ⊢
    rw [h1]
    simp only [skip_blank hb]
    rw [skip_solid rfl]
    simp only [h2, Option.map_some]

theorem readMembers_members {l : List (Str × Json)} {t : Str} (h : JsonMembers l t) : ∀ (n : Nat) (r : Str), 2 * t.length + 1 < n →
    readMembers n (t ++ '}' :: r) = some (l, r) := by
  intro n r hn
  obtain ⟨m, rfl⟩ : ∃ m, n = m + 1 := ⟨n - 1, by omega⟩
  cases h with
  | @one k j a x b c t d ha hx hb hc hv hd =>
    simp only [List.length_append, List.length_cons] at hn
    have h1 := readValue_value hv m c (d ++ '}' :: r) hc (stops_blank hd stops_brace) (by omega)
    have h2 := readChars_here hx (b ++ ':' :: (c ++ (t ++ (d ++ '}' :: r))))
    rw [readMembers]
    simp only [List.append_assoc, List.cons_append] at h1 h2 ⊢
    rw [skip_blank ha, skip_solid rfl]
    simp only [h2, skip_blank hb]
    rw [skip_solid rfl]
    simp only [h1, skip_blank hd]
    rw [skip_solid rfl]
    rfl
  | @more k j l a x b c t d u ha hx hb hc hv hd hl =>
    simp only [List.length_append, List.length_cons] at hn
    have h1 := readValue_value hv m c (d ++ ',' :: (u ++ '}' :: r)) hc (stops_blank hd stops_comma) (by omega)
    have h2 := readChars_here hx (b ++ ':' :: (c ++ (t ++ (d ++ ',' :: (u ++ '}' :: r)))))
    have h3 := readMembers_members hl m r (by omega)
    rw [readMembers]
    simp only [List.append_assoc, List.cons_append] at h1 h2 ⊢
    rw [skip_blank ha, skip_solid rfl]
    simp only [h2, skip_blank hb]
    rw [skip_solid rfl]
    simp only [h1, skip_blank hd]
    rw [skip_solid rfl]
    simp only [h3, Option.map_some]
end

theorem readJson_text {j : Json} {s : Str} (h : JsonText j s) : readJson s = some j := by
  obtain ⟨a, t, b, ha, hv, hb, rfl⟩ := h
  unfold readJson
  rw [List.append_assoc, readValue_value hv _ a b ha (by simpa using stops_blank hb stops_nil) (by simp; omega)]
  simp only [blank_end hb, List.isEmpty_nil, if_true]

/-! ## Only JSON texts are read -/

theorem hexValue_sound {h : Char} {v : Nat} (hv : hexValue h = some v) : HexDigit h v := by
  unfold hexValue at hv
  have le : ∀ a b : Char, a ≤ b ↔ a.toNat ≤ b.toNat := fun a b => by rw [Char.le_def, UInt32.le_iff_toNat_le]; rfl
  simp only [le] at hv
  have e : ∀ n, h.toNat = n → h = Char.ofNat n := fun n hn => by rw [← hn, Char.ofNat_toNat]
  have n0 : '0'.toNat = 48 := rfl
  have n9 : '9'.toNat = 57 := rfl
  have na : 'a'.toNat = 97 := rfl
  have nf : 'f'.toNat = 102 := rfl
  have nA : 'A'.toNat = 65 := rfl
  have nF : 'F'.toNat = 70 := rfl
  split at hv
  · injection hv with hv
    exact .inl ⟨by omega, e _ (by omega)⟩
  split at hv
  · injection hv with hv
    exact .inr ⟨by omega, by omega, .inl (e _ (by omega))⟩
  split at hv
  · injection hv with hv
    exact .inr ⟨by omega, by omega, .inr (e _ (by omega))⟩
  · cases hv

theorem hexFour_sound {s r : Str} {v : Nat} (h : hexFour s = some (v, r)) : ∃ t, HexNumber t v ∧ s = t ++ r ∧ v < 0x10000 := by
  unfold hexFour at h
  split at h
  · rename_i a b c d s
    split at h
    · rename_i p q x t ha hb hc hd
      simp only [Option.some.injEq, Prod.mk.injEq] at h
      obtain ⟨h, rfl⟩ := h
      have bound : ∀ {y : Char} {w : Nat}, HexDigit y w → w < 16 := by
        intro y w hw
        rcases hw with ⟨_, _⟩ | ⟨_, _, _⟩ <;> omega
      have := bound (hexValue_sound ha)
      have := bound (hexValue_sound hb)
      have := bound (hexValue_sound hc)
      have := bound (hexValue_sound hd)
      exact ⟨[a, b, c, d], ⟨a, b, c, d, p, q, x, t, rfl, hexValue_sound ha, hexValue_sound hb, hexValue_sound hc, hexValue_sound hd, by omega⟩, rfl,
        by omega⟩
    · cases h
  · cases h

theorem ofNat_toNat_valid {v : Nat} (h : v < 0xD800 ∨ 0xDFFF < v ∧ v < 0x110000) : (Char.ofNat v).toNat = v := by
  have hv : v.isValidChar := by
    rcases h with h | h
    · exact .inl h
    · exact .inr h
  rw [Char.ofNat, dif_pos hv]
  rfl

theorem readEscape_sound {s r : Str} {c : Char} (h : readEscape s = some (c, r)) : ∃ t, JsonChar c ('\\' :: t) ∧ s = t ++ r := by
  unfold readEscape at h
  split at h
  · simp only [Option.some.injEq, Prod.mk.injEq] at h
    obtain ⟨rfl, rfl⟩ := h
    exact ⟨_, .quote, rfl⟩
  · simp only [Option.some.injEq, Prod.mk.injEq] at h
    obtain ⟨rfl, rfl⟩ := h
    exact ⟨_, .backslash, rfl⟩
  · simp only [Option.some.injEq, Prod.mk.injEq] at h
    obtain ⟨rfl, rfl⟩ := h
    exact ⟨_, .slash, rfl⟩
  · simp only [Option.some.injEq, Prod.mk.injEq] at h
    obtain ⟨rfl, rfl⟩ := h
    exact ⟨_, .backspace, rfl⟩
  · simp only [Option.some.injEq, Prod.mk.injEq] at h
    obtain ⟨rfl, rfl⟩ := h
    exact ⟨_, .formFeed, rfl⟩
  · simp only [Option.some.injEq, Prod.mk.injEq] at h
    obtain ⟨rfl, rfl⟩ := h
    exact ⟨_, .newline, rfl⟩
  · simp only [Option.some.injEq, Prod.mk.injEq] at h
    obtain ⟨rfl, rfl⟩ := h
    exact ⟨_, .return, rfl⟩
  · simp only [Option.some.injEq, Prod.mk.injEq] at h
    obtain ⟨rfl, rfl⟩ := h
    exact ⟨_, .tab, rfl⟩
  · rename_i s
    split at h
    · cases h
    rename_i v s' hv
    obtain ⟨t, ht, rfl, hb⟩ := hexFour_sound hv
    split at h
    · rename_i hr
      simp only [Option.some.injEq, Prod.mk.injEq] at h
      obtain ⟨rfl, rfl⟩ := h
      refine ⟨'u' :: t, .hex ?_, rfl⟩
      rwa [ofNat_toNat_valid (by omega)]
    split at h
    · rename_i h1 h2
      split at h
      · rename_i s''
        split at h
        · cases h
        rename_i w s3 hw
        obtain ⟨u, hu, rfl, _⟩ := hexFour_sound hw
        split at h
        · rename_i h3
          simp only [Option.some.injEq, Prod.mk.injEq] at h
          obtain ⟨rfl, rfl⟩ := h
          have e1 : 0xD800 + (v - 0xD800) = v := by omega
          have e2 : 0xDC00 + (w - 0xDC00) = w := by omega
          have := JsonChar.surrogates (c := Char.ofNat (0x10000 + (v - 0xD800) * 0x400 + (w - 0xDC00))) (h := t) (l := u) (v := v - 0xD800)
            (w := w - 0xDC00) (by rwa [e1]) (by rwa [e2]) (by omega) (by omega) (ofNat_toNat_valid (by omega))
          exact ⟨'u' :: t ++ '\\' :: 'u' :: u, this, by simp⟩
        · cases h
      · cases h
    · cases h
  · cases h

theorem readChars_sound : ∀ {n : Nat} {s x r : Str}, readChars n s = some (x, r) → ∃ t, JsonChars x t ∧ s = t ++ '"' :: r
  | 0, _, _, _, h => by cases h
  | _ + 1, [], _, _, h => by cases h
  | n + 1, c :: s, x, r, h => by
    rw [readChars] at h
    split at h
    · rename_i hc
      subst hc
      simp only [Option.some.injEq, Prod.mk.injEq] at h
      obtain ⟨rfl, rfl⟩ := h
      exact ⟨[], .nil, rfl⟩
    split at h
    · rename_i hc
      subst hc
      split at h
      · cases h
      rename_i d s' hd
      simp only [Option.map_eq_some_iff, Prod.mk.injEq] at h
      obtain ⟨⟨y, r'⟩, h1, rfl, rfl⟩ := h
      obtain ⟨t, ht, rfl⟩ := readEscape_sound hd
      obtain ⟨u, hu, rfl⟩ := readChars_sound h1
      exact ⟨('\\' :: t) ++ u, .cons ht hu, by simp⟩
    split at h
    · cases h
    · rename_i h1 h2 h3
      simp only [Option.map_eq_some_iff, Prod.mk.injEq] at h
      obtain ⟨⟨y, r'⟩, h4, rfl, rfl⟩ := h
      obtain ⟨u, hu, rfl⟩ := readChars_sound h4
      exact ⟨[c] ++ u, .cons (.plain (by omega) h1 h2) hu, rfl⟩

/-- What is skipped is white space. -/
theorem skip_sound (s : Str) : ∃ a, Blank a ∧ s = a ++ skipJsonSpace s := by
  refine ⟨s.takeWhile isJsonSpace, ?_, (List.takeWhile_append_dropWhile ..).symm⟩
  intro c hc
  have := List.all_eq_true.1 (List.all_takeWhile (p := isJsonSpace) (l := s)) c hc
  simp only [isJsonSpace, Bool.or_eq_true, beq_iff_eq] at this
  rcases this with ((h | h) | h) | h
  · exact .inl h
  · exact .inr (.inl h)
  · exact .inr (.inr (.inl h))
  · exact .inr (.inr (.inr h))

theorem read_sound (n : Nat) :
    (∀ s j r, readValue n s = some (j, r) → ∃ a t, Blank a ∧ JsonValue j t ∧ s = a ++ (t ++ r)) ∧
    (∀ s l r, readElements n s = some (l, r) → ∃ t, JsonElements l t ∧ s = t ++ ']' :: r) ∧
    (∀ s l r, readMembers n s = some (l, r) → ∃ t, JsonMembers l t ∧ s = t ++ '}' :: r) := by
  induction n with
  | zero => exact ⟨fun _ _ _ h => by simp [readValue] at h, fun _ _ _ h => by simp [readElements] at h, fun _ _ _ h => by simp [readMembers] at h⟩
  | succ n ih =>
    obtain ⟨ihv, ihe, ihm⟩ := ih
    refine ⟨fun s j r h => ?_, fun s l r h => ?_, fun s l r h => ?_⟩
    · rw [readValue] at h
      obtain ⟨a, ha, hs⟩ := skip_sound s
      suffices hv : ∃ t, JsonValue j t ∧ skipJsonSpace s = t ++ r by
        obtain ⟨t, ht, h2⟩ := hv
        exact ⟨a, t, ha, ht, by rw [← h2]; exact hs⟩
      split at h
      · cases h
      rename_i c s' hc
      rw [hc]
      split at h
      · rename_i hq
        subst hq
        simp only [Option.map_eq_some_iff, Prod.mk.injEq] at h
        obtain ⟨⟨x, r'⟩, h1, rfl, rfl⟩ := h
        obtain ⟨t, ht, rfl⟩ := readChars_sound h1
        exact ⟨_, .str ht, by simp⟩
      split at h
      · rename_i hq
        subst hq
        obtain ⟨b, hb, hs'⟩ := skip_sound s'
        split at h
        · rename_i s2 h2
          simp only [Option.some.injEq, Prod.mk.injEq] at h
          obtain ⟨rfl, rfl⟩ := h
          exact ⟨_, .emptyArr hb, by rw [hs', h2]; simp⟩
        · simp only [Option.map_eq_some_iff, Prod.mk.injEq] at h
          obtain ⟨⟨x, r'⟩, h1, rfl, rfl⟩ := h
          obtain ⟨t, ht, h3⟩ := ihe _ _ _ h1
          exact ⟨_, .arr ht, by rw [h3]; simp⟩
      split at h
      · rename_i hq
        subst hq
        obtain ⟨b, hb, hs'⟩ := skip_sound s'
        split at h
        · rename_i s2 h2
          simp only [Option.some.injEq, Prod.mk.injEq] at h
          obtain ⟨rfl, rfl⟩ := h
          exact ⟨_, .emptyObj hb, by rw [hs', h2]; simp⟩
        · simp only [Option.map_eq_some_iff, Prod.mk.injEq] at h
          obtain ⟨⟨x, r'⟩, h1, rfl, rfl⟩ := h
          obtain ⟨t, ht, h3⟩ := ihm _ _ _ h1
          exact ⟨_, .obj ht, by rw [h3]; simp⟩
      split at h
      · simp only [Option.some.injEq, Prod.mk.injEq] at h
        obtain ⟨rfl, rfl⟩ := h
        exact ⟨_, .null, rfl⟩
      · simp only [Option.some.injEq, Prod.mk.injEq] at h
        obtain ⟨rfl, rfl⟩ := h
        exact ⟨_, .true, rfl⟩
      · simp only [Option.some.injEq, Prod.mk.injEq] at h
        obtain ⟨rfl, rfl⟩ := h
        exact ⟨_, .false, rfl⟩
      · simp only [Option.map_eq_some_iff, Prod.mk.injEq] at h
        obtain ⟨r', h1, rfl, rfl⟩ := h
        obtain ⟨t, ht, h3⟩ := readNumber_sound h1
        exact ⟨t, .num ht, h3⟩
    · rw [readElements] at h
      split at h
      · cases h
      rename_i j s1 h1
      obtain ⟨a, t, ha, ht, rfl⟩ := ihv _ _ _ h1
      obtain ⟨b, hb, hs1⟩ := skip_sound s1
      split at h
      · rename_i s2 h2
        simp only [Option.map_eq_some_iff, Prod.mk.injEq] at h
        obtain ⟨⟨x, r'⟩, h3, rfl, rfl⟩ := h
        obtain ⟨u, hu, rfl⟩ := ihe _ _ _ h3
        exact ⟨_, .more ha ht hb hu, by rw [hs1, h2]; simp⟩
      · rename_i s2 h2
        simp only [Option.some.injEq, Prod.mk.injEq] at h
        obtain ⟨rfl, rfl⟩ := h
        exact ⟨_, .one ha ht hb, by rw [hs1, h2]; simp⟩
      · cases h
    · rw [readMembers] at h
      obtain ⟨a, ha, hs⟩ := skip_sound s
      split at h
      · rename_i s0 h0
        rw [h0] at hs
        split at h
        · cases h
        rename_i k s1 h1
        obtain ⟨x, hx, rfl⟩ := readChars_sound h1
        obtain ⟨b, hb, hs1⟩ := skip_sound s1
        split at h
        · rename_i s2 h2
          rw [h2] at hs1
          split at h
          · cases h
          rename_i j s3 h3
          obtain ⟨c, t, hc, ht, rfl⟩ := ihv _ _ _ h3
          obtain ⟨d, hd, hs3⟩ := skip_sound s3
          split at h
          · rename_i s4 h4
            simp only [Option.map_eq_some_iff, Prod.mk.injEq] at h
            obtain ⟨⟨y, r'⟩, h5, rfl, rfl⟩ := h
            obtain ⟨u, hu, rfl⟩ := ihm _ _ _ h5
            exact ⟨_, .more ha hx hb hc ht hd hu, by rw [hs, hs1, hs3, h4]; simp⟩
          · rename_i s4 h4
            simp only [Option.some.injEq, Prod.mk.injEq] at h
            obtain ⟨rfl, rfl⟩ := h
            exact ⟨_, .one ha hx hb hc ht hd, by rw [hs, hs1, hs3, h4]; simp⟩
          · cases h
        · cases h
      · cases h

theorem readJson_iff {j : Json} {s : Str} : readJson s = some j ↔ JsonText j s := by
  refine ⟨fun h => ?_, readJson_text⟩
  unfold readJson at h
  split at h
  · rename_i j' r hr
    split at h
    · rename_i hb
      injection h with h
      subst h
      obtain ⟨a, t, ha, ht, rfl⟩ := (read_sound _).1 _ _ _ hr
      obtain ⟨b, hb', hr'⟩ := skip_sound r
      rw [List.isEmpty_iff.1 hb, List.append_nil] at hr'
      exact ⟨a, t, r, ha, ht, by rw [hr']; exact hb', by simp⟩
    · cases h
  · cases h

/-! ## Writing -/

theorem hexDigit_spec {v : Nat} (h : v < 16) : HexDigit (hexDigit v) v := by
  unfold hexDigit HexDigit
  by_cases hv : v < 10
  · rw [if_pos hv]; exact .inl ⟨hv, rfl⟩
  · rw [if_neg hv]; exact .inr ⟨by omega, h, .inl rfl⟩

theorem escapeChar_spec (c : Char) : JsonChar c (escapeChar c) := by
  unfold escapeChar
  split
  · rename_i h; subst h; exact .quote
  split
  · rename_i h; subst h; exact .backslash
  split
  · rename_i h; subst h; exact .backspace
  split
  · rename_i h; subst h; exact .formFeed
  split
  · rename_i h; subst h; exact .newline
  split
  · rename_i h; subst h; exact .return
  split
  · rename_i h; subst h; exact .tab
  split
  · rename_i h
    refine .hex ⟨'0', '0', _, _, 0, 0, c.toNat / 16, c.toNat % 16, rfl, .inl ⟨by omega, rfl⟩, .inl ⟨by omega, rfl⟩, hexDigit_spec (by omega),
      hexDigit_spec (by omega), by omega⟩
  · exact .plain (by omega) ‹_› ‹_›

theorem escape_spec : ∀ s : Str, JsonChars s (s.flatMap escapeChar)
  | [] => .nil
  | c :: s => by rw [List.flatMap_cons]; exact .cons (escapeChar_spec c) (escape_spec s)

/-- Values without numbers. -/
inductive Numberless : Json → Prop
  | null : Numberless .null
  | bool (b : Bool) : Numberless (.bool b)
  | str (s : Str) : Numberless (.str s)
  | arr {l : List Json} : (∀ j ∈ l, Numberless j) → Numberless (.arr l)
  | obj {l : List (Str × Json)} : (∀ m ∈ l, Numberless m.2) → Numberless (.obj l)

theorem compactElements_spec : ∀ {l : List Json}, l ≠ [] → (∀ j ∈ l, JsonValue j j.compact) → JsonElements l (compactElements l)
  | [], h, _ => absurd rfl h
  | [j], _, h => by
    have := JsonElements.one blank_nil (h j (by simp)) blank_nil
    simpa [compactElements] using this
  | j :: k :: l, _, h => by
    have := JsonElements.more blank_nil (h j (by simp)) blank_nil (compactElements_spec (l := k :: l) (by simp) (fun x hx => h x (by simp [hx])))
    simpa [compactElements] using this

theorem compactMembers_spec : ∀ {l : List (Str × Json)}, l ≠ [] → (∀ m ∈ l, JsonValue m.2 m.2.compact) → JsonMembers l (compactMembers l)
  | [], h, _ => absurd rfl h
  | [(k, j)], _, h => by
    have := JsonMembers.one blank_nil (escape_spec k) blank_nil blank_nil (h (k, j) (by simp)) blank_nil
    simpa [compactMembers, jsonString] using this
  | (k, j) :: m :: l, _, h => by
    have := JsonMembers.more blank_nil (escape_spec k) blank_nil blank_nil (h (k, j) (by simp)) blank_nil
      (compactMembers_spec (l := m :: l) (by simp) (fun x hx => h x (by simp [hx])))
    simpa [compactMembers, jsonString] using this

theorem compact_spec {j : Json} (h : Numberless j) : JsonValue j j.compact := by
  induction h with
  | null => simp only [Json.compact]; exact .null
  | bool b => cases b <;> simp only [Json.compact] <;> constructor
  | str s => simp only [Json.compact, jsonString]; exact .str (escape_spec s)
  | @arr l _ ih =>
    simp only [Json.compact]
    by_cases hl : l = []
    · subst hl
      simp only [compactElements]
      exact .emptyArr blank_nil
    · exact .arr (compactElements_spec hl ih)
  | @obj l _ ih =>
    simp only [Json.compact]
    by_cases hl : l = []
    · subst hl
      simp only [compactMembers]
      exact .emptyObj blank_nil
    · exact .obj (compactMembers_spec hl ih)

theorem blank_indent (d : Nat) : Blank (jsonIndent d) := by
  intro c hc
  simp only [jsonIndent, List.mem_cons, List.mem_replicate] at hc
  rcases hc with rfl | ⟨_, rfl⟩
  · exact .inr (.inl rfl)
  · exact .inl rfl

theorem blank_space : Blank [' '] := by
  intro c hc
  exact .inl (by simpa using hc)

theorem prettyElements_spec {d : Nat} {e : Str} (he : Blank e) : ∀ {l : List Json}, l ≠ [] → (∀ j ∈ l, JsonValue j (j.pretty d)) →
    JsonElements l (prettyElements d l ++ e)
  | [], h, _ => absurd rfl h
  | [j], _, h => by
    have := JsonElements.one (blank_indent d) (h j (by simp)) he
    simpa [prettyElements] using this
  | j :: k :: l, _, h => by
    have := JsonElements.more (blank_indent d) (h j (by simp)) blank_nil (prettyElements_spec he (l := k :: l) (by simp) (fun x hx => h x (by simp [hx])))
    simpa [prettyElements] using this

theorem prettyMembers_spec {d : Nat} {e : Str} (he : Blank e) : ∀ {l : List (Str × Json)}, l ≠ [] → (∀ m ∈ l, JsonValue m.2 (m.2.pretty d)) →
    JsonMembers l (prettyMembers d l ++ e)
  | [], h, _ => absurd rfl h
  | [(k, j)], _, h => by
    have := JsonMembers.one (blank_indent d) (escape_spec k) blank_nil blank_space (h (k, j) (by simp)) he
    simpa [prettyMembers, jsonString] using this
  | (k, j) :: m :: l, _, h => by
    have := JsonMembers.more (blank_indent d) (escape_spec k) blank_nil blank_space (h (k, j) (by simp)) blank_nil
      (prettyMembers_spec he (l := m :: l) (by simp) (fun x hx => h x (by simp [hx])))
    simpa [prettyMembers, jsonString] using this

theorem pretty_spec {j : Json} (h : Numberless j) : ∀ d, JsonValue j (j.pretty d) := by
  induction h with
  | null => intro d; simp only [Json.pretty]; exact .null
  | bool b => intro d; cases b <;> simp only [Json.pretty] <;> constructor
  | str s => intro d; simp only [Json.pretty, jsonString]; exact .str (escape_spec s)
  | @arr l _ ih =>
    intro d
    cases l with
    | nil => simp only [Json.pretty]; exact .emptyArr (a := []) blank_nil
    | cons j l =>
      simp only [Json.pretty]
      exact .arr (prettyElements_spec (blank_indent d) (by simp) (fun j hj => ih j hj (d + 1)))
  | @obj l _ ih =>
    intro d
    cases l with
    | nil => simp only [Json.pretty]; exact .emptyObj (a := []) blank_nil
    | cons m l =>
      simp only [Json.pretty]
      exact .obj (prettyMembers_spec (blank_indent d) (by simp) (fun m hm => ih m hm (d + 1)))

theorem term_numberless (t : Term) : Numberless t.toJson := by
  cases t <;> simp only [Term.toJson] <;> exact .obj (by simp only [List.mem_singleton]; rintro m rfl; exact .str _)

theorem expression_numberless (e : Expression) : Numberless e.toJson := by
  refine .obj ?_
  simp only [List.mem_singleton]
  rintro m rfl
  refine .arr ?_
  simp only [List.mem_map]
  rintro j ⟨t, _, rfl⟩
  exact term_numberless t

theorem production_numberless (p : Production) : Numberless p.toJson := by
  refine .obj ?_
  simp only [List.mem_cons, List.not_mem_nil, or_false]
  rintro m (rfl | rfl)
  · exact term_numberless _
  · refine .arr ?_
    simp only [List.mem_map]
    rintro j ⟨t, _, rfl⟩
    exact expression_numberless t

theorem grammar_numberless (g : Grammar) : Numberless g.toJson := by
  refine .obj ?_
  simp only [List.mem_singleton]
  rintro m rfl
  refine .arr ?_
  simp only [List.mem_map]
  rintro j ⟨t, _, rfl⟩
  exact production_numberless t

/-! ## Values and grammars -/

theorem jsonField_iff {k : Str} {ms : List (Str × Json)} {j : Json} : jsonField k ms = some j ↔ OnlyMember k ms j := by
  have none_of : ∀ l : List (Str × Json), (l.filter fun m => m.1 == k) = [] ↔ ∀ m ∈ l, m.1 ≠ k := by
    intro l; simp [List.filter_eq_nil_iff]
  constructor
  · intro h
    unfold jsonField at h
    split at h
    · rename_i m hm
      injection h with h
      subst h
      have hmem : m ∈ ms.filter fun m => m.1 == k := by rw [hm]; simp
      obtain ⟨h1, h2⟩ := List.mem_filter.1 hmem
      obtain ⟨b, a, rfl⟩ := List.append_of_mem h1
      have hk : m.1 = k := by simpa using h2
      refine ⟨b, a, by rw [← hk], ?_⟩
      rw [List.filter_append, List.filter_cons, if_pos h2] at hm
      have hb : (b.filter fun m => m.1 == k) = [] := by
        cases hb : b.filter fun m => m.1 == k with
        | nil => rfl
        | cons x xs =>
          rw [hb] at hm
          have := congrArg List.length hm
          simp at this
      rw [hb] at hm
      simp only [List.nil_append, List.cons.injEq, true_and] at hm
      intro x hx
      rcases List.mem_append.1 hx with hx | hx
      · exact (none_of b).1 hb x hx
      · exact (none_of a).1 hm x hx
    · cases h
  · rintro ⟨b, a, rfl, h⟩
    unfold jsonField
    rw [List.filter_append, List.filter_cons, (none_of b).2 (fun m hm => h m (by simp [hm])), (none_of a).2 (fun m hm => h m (by simp [hm]))]
    simp

theorem mapM_iff {α β : Type} {f : α → Option β} {P : α → β → Prop} (h : ∀ a b, f a = some b ↔ P a b) :
    ∀ {l : List α} {m : List β}, l.mapM f = some m ↔ List.Forall₂ P l m
  | [], m => by
    simp only [List.mapM_nil, pure, Option.some.injEq, List.forall₂_nil_left_iff]
    exact eq_comm
  | a :: l, m => by
    rw [List.mapM_cons]
    simp only [bind, Option.bind_eq_some_iff, pure, Option.some.injEq, List.forall₂_cons_left_iff]
    constructor
    · rintro ⟨b, h1, m', h2, rfl⟩
      exact ⟨b, m', (h a b).1 h1, (mapM_iff h).1 h2, rfl⟩
    · rintro ⟨b, m', h1, h2, rfl⟩
      exact ⟨b, (h a b).2 h1, m', (mapM_iff h).2 h2, rfl⟩

theorem jsonVec_iff {α : Type} {f : Json → Option α} {P : Json → α → Prop} (h : ∀ a b, f a = some b ↔ P a b) {j : Json} {m : List α} :
    jsonVec f j = some m ↔ ∃ l, j = .arr l ∧ List.Forall₂ P l m := by
  cases j <;> simp [jsonVec, mapM_iff h]

theorem jsonStruct_one {k : Str} {j : Json} {x : List Json} :
    jsonStruct [k] j = some x ↔ ∃ v, x = [v] ∧ ((∃ ms, j = .obj ms ∧ OnlyMember k ms v) ∨ j = .arr [v]) := by
  cases j with
  | obj ms =>
    simp only [jsonStruct, List.mapM_cons, List.mapM_nil, bind, Option.bind_eq_some_iff, pure, Option.some.injEq]
    constructor
    · rintro ⟨v, h1, y, rfl, rfl⟩
      exact ⟨v, rfl, .inl ⟨ms, rfl, jsonField_iff.1 h1⟩⟩
    · rintro ⟨v, rfl, ⟨ms', h, h1⟩ | h⟩
      · injection h with h
        subst h
        exact ⟨v, jsonField_iff.2 h1, [], rfl, rfl⟩
      · cases h
  | arr l =>
    simp only [jsonStruct]
    constructor
    · intro h
      split at h
      · rename_i hl
        simp only [Option.some.injEq] at h
        subst h
        obtain ⟨v, rfl⟩ := List.length_eq_one_iff.1 hl
        exact ⟨v, rfl, .inr rfl⟩
      · cases h
    · rintro ⟨v, rfl, ⟨ms, h, _⟩ | h⟩
      · cases h
      · injection h with h
        subst h
        simp
  | null => simp [jsonStruct]
  | bool b => simp [jsonStruct]
  | num => simp [jsonStruct]
  | str s => simp [jsonStruct]

theorem jsonStruct_two {k k' : Str} {j : Json} {x : List Json} :
    jsonStruct [k, k'] j = some x ↔
      ∃ v w, x = [v, w] ∧ ((∃ ms, j = .obj ms ∧ OnlyMember k ms v ∧ OnlyMember k' ms w) ∨ j = .arr [v, w]) := by
  cases j with
  | obj ms =>
    simp only [jsonStruct, List.mapM_cons, List.mapM_nil, bind, Option.bind_eq_some_iff, pure, Option.some.injEq]
    constructor
    · rintro ⟨v, h1, y, ⟨w, h2, z, rfl, rfl⟩, rfl⟩
      exact ⟨v, w, rfl, .inl ⟨ms, rfl, jsonField_iff.1 h1, jsonField_iff.1 h2⟩⟩
    · rintro ⟨v, w, rfl, ⟨ms', h, h1, h2⟩ | h⟩
      · injection h with h
        subst h
        exact ⟨v, jsonField_iff.2 h1, [w], ⟨w, jsonField_iff.2 h2, [], rfl, rfl⟩, rfl⟩
      · cases h
  | arr l =>
    simp only [jsonStruct]
    constructor
    · intro h
      split at h
      · rename_i hl
        simp only [Option.some.injEq] at h
        subst h
        obtain ⟨v, w, rfl⟩ := List.length_eq_two.1 hl
        exact ⟨v, w, rfl, .inr rfl⟩
      · cases h
    · rintro ⟨v, w, rfl, ⟨ms, h, _⟩ | h⟩
      · cases h
      · injection h with h
        subst h
        simp
  | null => simp [jsonStruct]
  | bool b => simp [jsonStruct]
  | num => simp [jsonStruct]
  | str s => simp [jsonStruct]

theorem term_fromJson {j : Json} {t : Term} : Term.fromJson j = some t ↔ TermValue j t := by
  have e1 : "Terminal".toList = ['T', 'e', 'r', 'm', 'i', 'n', 'a', 'l'] := rfl
  have e2 : "Nonterminal".toList = ['N', 'o', 'n', 't', 'e', 'r', 'm', 'i', 'n', 'a', 'l'] := rfl
  unfold Term.fromJson
  split
  · rename_i k s
    by_cases h1 : k = ['T', 'e', 'r', 'm', 'i', 'n', 'a', 'l']
    · subst h1
      rw [if_pos rfl]
      cases t <;> simp [TermValue, e1, e2]
    · rw [if_neg h1]
      by_cases h2 : k = ['N', 'o', 'n', 't', 'e', 'r', 'm', 'i', 'n', 'a', 'l']
      · subst h2
        rw [if_pos rfl]
        cases t <;> simp [TermValue, e1, e2]
      · rw [if_neg h2]
        cases t <;> simp [TermValue, e1, e2, h1, h2]
  · rename_i h
    cases t with
    | terminal s =>
      simp only [TermValue, e1, reduceCtorEq, false_iff]
      rintro rfl
      exact h _ _ rfl
    | nonterminal s =>
      simp only [TermValue, e2, reduceCtorEq, false_iff]
      rintro rfl
      exact h _ _ rfl

theorem expression_fromJson {j : Json} {e : Expression} : Expression.fromJson j = some e ↔ ExpressionValue j e := by
  have hk : "terms".toList = ['t', 'e', 'r', 'm', 's'] := rfl
  unfold Expression.fromJson ExpressionValue
  rw [hk]
  constructor
  · intro h
    split at h
    · rename_i ts hs
      obtain ⟨v, hv, hj⟩ := jsonStruct_one.1 hs
      injection hv with hv _
      subst hv
      simp only [Option.map_eq_some_iff] at h
      obtain ⟨l, h1, rfl⟩ := h
      obtain ⟨l', rfl, h2⟩ := (jsonVec_iff (fun _ _ => term_fromJson)).1 h1
      exact ⟨l', h2, hj⟩
    · cases h
  · rintro ⟨l, h1, h2⟩
    rw [jsonStruct_one.2 ⟨.arr l, rfl, h2⟩]
    simp only [(jsonVec_iff (fun _ _ => term_fromJson)).2 ⟨l, rfl, h1⟩, Option.map_some]

theorem production_fromJson {j : Json} {p : Production} : Production.fromJson j = some p ↔ ProductionValue j p := by
  have hk : "lhs".toList = ['l', 'h', 's'] := rfl
  have hk' : "rhs".toList = ['r', 'h', 's'] := rfl
  unfold Production.fromJson ProductionValue
  rw [hk, hk']
  constructor
  · intro h
    split at h
    · rename_i t ts hs
      obtain ⟨v, w, hv, hj⟩ := jsonStruct_two.1 hs
      simp only [List.cons.injEq, and_true] at hv
      obtain ⟨rfl, rfl⟩ := hv
      split at h
      · rename_i x y h1 h2
        simp only [Option.some.injEq] at h
        subst h
        obtain ⟨l', rfl, h3⟩ := (jsonVec_iff (fun _ _ => expression_fromJson)).1 h2
        exact ⟨t, l', term_fromJson.1 h1, h3, hj⟩
      · cases h
    · cases h
  · rintro ⟨t, l, h0, h1, h2⟩
    rw [jsonStruct_two.2 ⟨t, .arr l, rfl, h2⟩]
    simp only [(jsonVec_iff (fun _ _ => expression_fromJson)).2 ⟨l, rfl, h1⟩, term_fromJson.2 h0]

theorem grammar_fromJson {j : Json} {g : Grammar} : Grammar.fromJson j = some g ↔ GrammarValue j g := by
  have hk : "productions".toList = ['p', 'r', 'o', 'd', 'u', 'c', 't', 'i', 'o', 'n', 's'] := rfl
  unfold Grammar.fromJson GrammarValue
  rw [hk]
  constructor
  · intro h
    split at h
    · rename_i ts hs
      obtain ⟨v, hv, hj⟩ := jsonStruct_one.1 hs
      injection hv with hv _
      subst hv
      simp only [Option.map_eq_some_iff] at h
      obtain ⟨l, h1, rfl⟩ := h
      obtain ⟨l', rfl, h2⟩ := (jsonVec_iff (fun _ _ => production_fromJson)).1 h1
      exact ⟨l', h2, hj⟩
    · cases h
  · rintro ⟨l, h1, h2⟩
    rw [jsonStruct_one.2 ⟨.arr l, rfl, h2⟩]
    simp only [(jsonVec_iff (fun _ _ => production_fromJson)).2 ⟨l, rfl, h1⟩, Option.map_some]

/-! ## Serialized values stand for what was serialized -/

theorem onlyMember_head {k : Str} {j : Json} : OnlyMember k [(k, j)] j := ⟨[], [], rfl, by simp⟩

theorem term_value (t : Term) : TermValue t.toJson t := by cases t <;> rfl

theorem forall₂_map_left {α β : Type} {P : β → α → Prop} {f : α → β} (h : ∀ a, P (f a) a) : ∀ l : List α, List.Forall₂ P (l.map f) l
  | [] => .nil
  | a :: l => .cons (h a) (forall₂_map_left h l)

theorem expression_value (e : Expression) : ExpressionValue e.toJson e :=
  ⟨_, forall₂_map_left term_value e.terms, .inl ⟨_, rfl, onlyMember_head⟩⟩

theorem production_value (p : Production) : ProductionValue p.toJson p :=
  ⟨_, _, term_value p.lhs, forall₂_map_left expression_value p.rhs,
    .inl ⟨_, rfl, ⟨[], [(['r', 'h', 's'], .arr (p.rhs.map Expression.toJson))], rfl, by simp⟩,
      ⟨[(['l', 'h', 's'], p.lhs.toJson)], [], rfl, by simp⟩⟩⟩

theorem grammar_value (g : Grammar) : GrammarValue g.toJson g :=
  ⟨_, forall₂_map_left production_value g.productions, .inl ⟨_, rfl, onlyMember_head⟩⟩

end Bnf
