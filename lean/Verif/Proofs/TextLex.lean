import Verif.Proofs.Nom
import Verif.Spec.Syntax

/-! # Lexical part of the text parser: layout, names, quoted texts -/

set_option autoImplicit false

namespace Bnf
open Spec Nom

/-! ## Layout -/

/-- Layout skipping by structural recursion; `true`: inside a comment. -/
def skipM : Bool → Str → Str
  | _, [] => []
  | false, c :: cs => if isWhitespace c then skipM false cs else if c = ';' then skipM true cs else c :: cs
  | true, c :: cs => if c = '\r' ∨ c = '\n' then skipM false cs else skipM true cs

/-- `s` does not start with layout. -/
def Tight (s : Str) : Prop := ∀ c cs, s = c :: cs → isWhitespace c = false ∧ c ≠ ';'

theorem Tight.nil : Tight [] := by intro c cs h; cases h

theorem tight_cons {c : Char} {cs : Str} (h : isWhitespace c = false) (h' : c ≠ ';') : Tight (c :: cs) := by
  intro d ds e
  injection e with e1 e2
  subst e1
  exact ⟨h, h'⟩

theorem nl_ws {c : Char} (h : c = '\r' ∨ c = '\n') : isWhitespace c = true := by
  rcases h with rfl | rfl <;> decide

theorem semi_not_ws : isWhitespace ';' = false := by decide

theorem skipM_tight (b : Bool) (s : Str) : Tight (skipM b s) := by
  induction s generalizing b with
  | nil => cases b <;> exact .nil
  | cons c cs ih =>
    cases b
    · unfold skipM
      split
      · exact ih _
      · split
        · exact ih _
        · rename_i h1 h2
          exact tight_cons (by simpa using h1) h2
    · unfold skipM
      split <;> exact ih _

theorem skipM_of_tight {s : Str} (h : Tight s) : skipM false s = s := by
  cases s with
  | nil => rfl
  | cons c cs =>
    obtain ⟨h1, h2⟩ := h c cs rfl
    simp [skipM, h1, h2]

theorem skipM_length (b : Bool) (s : Str) : (skipM b s).length ≤ s.length := by
  induction s generalizing b with
  | nil => cases b <;> simp [skipM]
  | cons c cs ih =>
    cases b
    · unfold skipM
      split
      · have := ih false; simp; omega
      · split
        · have := ih true; simp; omega
        · exact Nat.le_refl _
    · unfold skipM
      split
      · have := ih false; simp; omega
      · have := ih true; simp; omega

theorem skipM_dropWhile (s : Str) : skipM false (s.dropWhile isWhitespace) = skipM false s := by
  induction s with
  | nil => rfl
  | cons c cs ih =>
    by_cases h : isWhitespace c = true
    · simp [h, skipM, ih]
    · simp [h]

theorem skipM_comment (s : Str) :
    skipM true s = skipM false (s.dropWhile fun c => !(c == '\r' || c == '\n')) := by
  induction s with
  | nil => rfl
  | cons c cs ih =>
    by_cases h : c = '\r' ∨ c = '\n'
    · have h1 : (c == '\r' || c == '\n') = true := by simpa using h
      rw [skipM, if_pos h, List.dropWhile_cons, h1]
      simp only [Bool.not_true, Bool.false_eq_true, if_false]
      rw [skipM, if_pos (nl_ws h)]
    · have h1 : (c == '\r' || c == '\n') = false := by simpa using h
      rw [skipM, if_neg h, List.dropWhile_cons, h1]
      simp only [Bool.not_false, if_true]
      exact ih

theorem dropWhile_suffix {p : Char → Bool} (s : Str) : ∃ u, s = u ++ s.dropWhile p :=
  ⟨s.takeWhile p, (List.takeWhile_append_dropWhile).symm⟩

theorem byteLen_eq_of_suffix {u r : Str} (h : byteLen r = byteLen (u ++ r)) : u = [] := by
  cases u with
  | nil => rfl
  | cons c u =>
    simp only [List.cons_append, byteLen, byteLen_append] at h
    have := Char.utf8Size_pos c
    omega

theorem wsLoop_eq : ∀ {n s}, s.length < n → wsLoop n s = some (skipM false s) := by
  intro n
  induction n with
  | zero => intro s h; omega
  | succ n ih =>
    intro s hn
    unfold wsLoop
    simp only
    obtain ⟨u, hu⟩ := dropWhile_suffix (p := isWhitespace) s
    split
    · rename_i hl
      have hl' := hl
      conv at hl' => rhs; rw [hu]
      have := byteLen_eq_of_suffix hl'
      subst this
      simp only [List.nil_append] at hu
      rw [← hu]
      split
      · rename_i a
        rw [skipM, if_neg (by rw [semi_not_ws]; simp), if_pos rfl, skipM_comment]
        obtain ⟨v, hv⟩ := dropWhile_suffix (p := fun c => !(c == '\r' || c == '\n')) a
        have hlen : (a.dropWhile fun c => !(c == '\r' || c == '\n')).length ≤ a.length := by
          conv => rhs; rw [hv]
          simp
        simp only [List.length_cons] at hn
        split
        · rename_i h0; rw [h0]; rfl
        · rename_i c cs h0
          rw [h0] at hlen ⊢
          exact ih (by omega)
      · rename_i hne
        congr 1
        refine (skipM_of_tight ?_).symm
        intro c cs hs
        subst hs
        constructor
        · cases hw : isWhitespace c with
          | false => rfl
          | true =>
            exfalso
            rw [List.dropWhile_cons, hw] at hu
            simp only [if_true] at hu
            obtain ⟨w, hw⟩ := dropWhile_suffix (p := isWhitespace) cs
            rw [← hu] at hw
            have := congrArg List.length hw
            simp at this
            omega
        · rintro rfl; exact hne cs rfl
    · rename_i hl
      have hlt : (s.dropWhile isWhitespace).length < s.length := by
        have h1 := congrArg List.length hu
        simp only [List.length_append] at h1
        cases u with
        | nil => simp only [List.nil_append] at hu; rw [← hu] at hl; exact absurd rfl hl
        | cons _ _ => simp only [List.length_cons] at h1; omega
      rw [ih (by omega), skipM_dropWhile]

theorem ws_eq (s : Str) : whitespacePlusComments s = .ok (skipM false s) () := by
  unfold whitespacePlusComments
  rw [wsLoop_eq (by omega)]

theorem layout_skipM (s : Str) : Layout s (skipM false s) := by
  have key : ∀ n s, s.length ≤ n → Layout s (skipM false s) ∧
      ((∃ u c t, s = u ++ c :: t ∧ (∀ d ∈ u, ¬ IsNewline d) ∧ IsNewline c ∧ Layout t (skipM true s)) ∨
        ((∀ d ∈ s, ¬ IsNewline d) ∧ skipM true s = [])) := by
    intro n
    induction n with
    | zero =>
      intro s h
      have : s = [] := by simpa using h
      subst this
      exact ⟨.nil, .inr ⟨by simp, rfl⟩⟩
    | succ n ih =>
      intro s h
      cases s with
      | nil => exact ⟨.nil, .inr ⟨by simp, rfl⟩⟩
      | cons c cs =>
        obtain ⟨h1, h2⟩ := ih cs (by simpa using h)
        constructor
        · unfold skipM
          split
          · rename_i hw; exact .space hw h1
          · split
            · rename_i hc
              subst hc
              rcases h2 with ⟨u, d, t, rfl, h3, h4, h5⟩ | ⟨h3, h4⟩
              · exact .comment h3 h4 h5
              · rw [h4]; exact .lastComment h3
            · exact .nil
        · unfold skipM
          split
          · rename_i hc
            exact .inl ⟨[], c, cs, rfl, by simp, hc, h1⟩
          · rename_i hc
            rcases h2 with ⟨u, d, t, rfl, h3, h4, h5⟩ | ⟨h3, h4⟩
            · refine .inl ⟨c :: u, d, t, rfl, ?_, h4, h5⟩
              intro e he
              rcases List.mem_cons.mp he with rfl | he
              · exact hc
              · exact h3 e he
            · refine .inr ⟨?_, h4⟩
              intro e he
              rcases List.mem_cons.mp he with rfl | he
              · exact hc
              · exact h3 e he
  exact (key s.length s (Nat.le_refl _)).1

theorem skipM_true_append {u : Str} (hu : ∀ d ∈ u, ¬ IsNewline d) (s : Str) : skipM true (u ++ s) = skipM true s := by
  induction u with
  | nil => rfl
  | cons c u ih =>
    have : ¬ (c = '\r' ∨ c = '\n') := hu c (by simp)
    rw [List.cons_append, skipM, if_neg this]
    exact ih fun d hd => hu d (by simp [hd])

/-- A layout that cannot be extended is the one that is skipped. -/
theorem layout_eq {s r : Str} (h : Layout s r) (hr : Tight r) : r = skipM false s := by
  induction h with
  | nil => exact (skipM_of_tight hr).symm
  | space hc _ ih => rw [skipM, if_pos hc]; exact ih hr
  | comment hu hc _ ih =>
    rw [skipM, if_neg (by rw [semi_not_ws]; simp), if_pos rfl, skipM_true_append hu, skipM]
    rw [if_pos (show _ = '\r' ∨ _ = '\n' from hc)]
    exact ih hr
  | lastComment hu =>
    rw [skipM, if_neg (by rw [semi_not_ws]; simp), if_pos rfl]
    have := skipM_true_append hu []
    rw [List.append_nil] at this
    rw [this]
    rfl

theorem ws_of_layout {s r : Str} (h : Layout s r) (hr : Tight r) : whitespacePlusComments s = .ok r () := by
  rw [ws_eq, ← layout_eq h hr]

theorem ws_sound {s r : Str} {v} (h : whitespacePlusComments s = .ok r v) : Layout s r ∧ Tight r := by
  rw [ws_eq] at h
  injection h with h _
  subst h
  exact ⟨layout_skipM s, skipM_tight _ _⟩

theorem Spec.Layout.suffix {s r : Str} (h : Layout s r) : ∃ u, s = u ++ r := by
  induction h with
  | nil => exact ⟨[], rfl⟩
  | @space c s r _ _ ih => obtain ⟨u, rfl⟩ := ih; exact ⟨c :: u, rfl⟩
  | @comment v c s r _ _ _ ih => obtain ⟨u, rfl⟩ := ih; exact ⟨';' :: (v ++ c :: u), by simp⟩
  | @lastComment u _ => exact ⟨';' :: u, by simp⟩

theorem Spec.Layout.length {s r : Str} (h : Layout s r) : r.length ≤ s.length := by
  obtain ⟨u, rfl⟩ := h.suffix
  simp

/-! ## Regular formats -/

/-- First characters of names. -/
def NameStart (F : Format) (c : Char) : Prop :=
  match F.nonterminalDelimiter with
  | some (a, _) => c = a
  | none => F.isAlphabetic c = true

/-- First characters of terms. -/
def Starts (F : Format) (c : Char) : Prop := c = '"' ∨ c = '\'' ∨ c = '(' ∨ c = '[' ∨ NameStart F c

/-- Conditions under which the tokens of a format can be told apart by their first characters. -/
structure Format.Regular (F : Format) : Prop where
  nameStart : ∀ c, NameStart F c → isWhitespace c = false ∧ c ∉ [';', '"', '\'', '(', '[', ')', ']']
  altSep : ¬ Starts F F.alternativeSeparator ∧ isWhitespace F.alternativeSeparator = false ∧
    F.alternativeSeparator ∉ [';', ')', ']']
  prodSep : ∃ x xs, F.productionSeparator = x :: xs ∧ ¬ Starts F x ∧ isWhitespace x = false ∧
    x ∉ [';', ')', ']', F.alternativeSeparator]
  startChar : ∀ c, F.productionStartChar = some c → ∃ b, F.nonterminalDelimiter = some (c, b)

/-- What sound reading of names needs: an undelimited name does not begin with a character at which it ends. -/
structure Format.Named (F : Format) : Prop where
  letter : F.nonterminalDelimiter = none → ∀ c, F.isAlphabetic c = true → ¬ NameStop c

theorem Format.Regular.named {F : Format} (hF : F.Regular) : F.Named where
  letter := by
    intro hd c hc
    obtain ⟨h1, h2⟩ := hF.nameStart c (by unfold NameStart; rw [hd]; exact hc)
    rintro (h | rfl | rfl)
    · rw [h1] at h; cases h
    · simp at h2
    · simp at h2

instance {F : Format} : Coe F.Regular F.Named := ⟨Format.Regular.named⟩

theorem starts_tight {F : Format} (hF : F.Regular) {c : Char} (h : Starts F c) : isWhitespace c = false ∧ c ≠ ';' := by
  rcases h with rfl | rfl | rfl | rfl | h
  · decide
  · decide
  · decide
  · decide
  · obtain ⟨h1, h2⟩ := hF.nameStart c h
    exact ⟨h1, by rintro rfl; simp at h2⟩

theorem close_not_starts {F : Format} (hF : F.Regular) {c : Char} (h : c = ')' ∨ c = ']') : ¬ Starts F c := by
  intro hs
  rcases hs with h' | h' | h' | h' | h'
  · subst h'; revert h; decide
  · subst h'; revert h; decide
  · subst h'; revert h; decide
  · subst h'; revert h; decide
  · have := (hF.nameStart c h').2
    rcases h with rfl | rfl <;> simp at this

theorem BNF_regular : BNF.Regular where
  nameStart := by
    intro c h
    have : c = '<' := h
    subst this
    decide
  altSep := by
    refine ⟨?_, by decide, by decide⟩
    rintro (h | h | h | h | h)
    all_goals first | (revert h; decide) | (have h : '|' = '<' := h; revert h; decide)
  prodSep := by
    refine ⟨':', _, rfl, ?_, by decide, by decide⟩
    rintro (h | h | h | h | h)
    all_goals first | (revert h; decide) | (have h : ':' = '<' := h; revert h; decide)
  startChar := by
    intro c h
    injection h with h
    subst h
    exact ⟨'>', rfl⟩

theorem alpha_ascii {f : Char → Bool} (hf : AlphabeticTable f) {c : Char} (h : c.toNat < 128) (h' : c.isAlpha = false) :
    f c ≠ true := by
  rw [hf.ascii c h, h']
  simp

theorem ABNF_regular {f : Char → Bool} (hf : AlphabeticTable f) : (ABNF f).Regular where
  nameStart := by
    intro c h
    have h : f c = true := h
    constructor
    · cases hw : isWhitespace c with
      | false => rfl
      | true => rw [hf.space c hw] at h; cases h
    · intro hm
      simp only [List.mem_cons, List.not_mem_nil, or_false] at hm
      rcases hm with rfl | rfl | rfl | rfl | rfl | rfl | rfl <;> exact alpha_ascii hf (by decide) (by decide) h
  altSep := by
    show ¬ Starts (ABNF f) '/' ∧ isWhitespace '/' = false ∧ '/' ∉ [';', ')', ']']
    refine ⟨?_, by decide, by decide⟩
    rintro (h | h | h | h | h)
    · revert h; decide
    · revert h; decide
    · revert h; decide
    · revert h; decide
    · exact alpha_ascii hf (by decide) (by decide) h
  prodSep := by
    show ∃ x xs, ['='] = x :: xs ∧ ¬ Starts (ABNF f) x ∧ isWhitespace x = false ∧ x ∉ [';', ')', ']', '/']
    refine ⟨'=', _, rfl, ?_, by decide, by decide⟩
    rintro (h | h | h | h | h)
    · revert h; decide
    · revert h; decide
    · revert h; decide
    · revert h; decide
    · exact alpha_ascii hf (by decide) (by decide) h
  startChar := by intro c h; cases h

/-! ## Names and quoted texts -/

theorem satisfy_ok {f : Char → Bool} {s r v} : satisfy f s = .ok r v ↔ s = v :: r ∧ f v = true := by
  cases s with
  | nil => simp [satisfy]
  | cons d s =>
    simp only [satisfy]
    by_cases h : f d = true
    · simp only [h, if_true, Res.ok.injEq, List.cons.injEq]
      constructor
      · rintro ⟨rfl, rfl⟩; exact ⟨⟨rfl, rfl⟩, h⟩
      · rintro ⟨⟨rfl, rfl⟩, _⟩; exact ⟨rfl, rfl⟩
    · simp only [h, List.cons.injEq]
      constructor
      · intro h; cases h
      · rintro ⟨⟨rfl, rfl⟩, h1⟩; exact absurd h1 h

theorem delimited_ok {α β γ : Type} {a : P α} {b : P β} {c : P γ} {s r v} : delimited a b c s = .ok r v ↔
    ∃ s1 x s2 y, a s = .ok s1 x ∧ b s1 = .ok s2 v ∧ c s2 = .ok r y := by
  simp only [delimited, Res.andThen_ok, Res.ok.injEq]
  constructor
  · rintro ⟨s1, x, h1, s2, y, h2, s3, z, h3, rfl, rfl⟩
    exact ⟨s1, x, s2, z, h1, h2, h3⟩
  · rintro ⟨s1, x, s2, y, h1, h2, h3⟩
    exact ⟨s1, x, h1, s2, v, h2, r, y, h3, rfl, rfl⟩

theorem nameText_ok {F : Format} (hF : F.Named) {s r u} : nameText F s = .ok r u ↔ Name F u s r := by
  unfold nameText Name
  cases hd : F.nonterminalDelimiter with
  | some ab =>
    obtain ⟨a, b⟩ := ab
    simp only
    rw [delimited_ok]
    simp only [char_ok, takeTill_ok]
    constructor
    · rintro ⟨s1, x, s2, y, ⟨rfl, rfl⟩, ⟨rfl, h1, h2⟩, rfl, rfl⟩
      exact ⟨rfl, fun hm => by simpa using h1 _ hm⟩
    · rintro ⟨rfl, h⟩
      refine ⟨_, _, _, _, ⟨rfl, rfl⟩, ⟨rfl, ?_, .inr ⟨b, r, rfl, by simp⟩⟩, rfl, rfl⟩
      intro c hc
      simp only [beq_eq_false_iff_ne, ne_eq]
      rintro rfl
      exact h hc
  | none =>
    simp only [Res.andThen_ok, satisfy_ok, takeTill_ok]
    have stop : ∀ c : Char, (isWhitespace c || c == ')' || c == ']') = true ↔ NameStop c := by
      intro c; simp [NameStop, or_assoc]
    have nstop : ∀ c : Char, (isWhitespace c || c == ')' || c == ']') = false ↔ ¬ NameStop c := by
      intro c; rw [← stop]; simp
    constructor
    · rintro ⟨r1, v, ⟨h1, h2⟩, h3, h4, h5⟩
      refine ⟨h3, ?_, fun c hc => (nstop c).mp (h4 c hc), ?_⟩
      · cases u with
        | nil =>
          exfalso
          simp only [List.nil_append] at h3
          subst h3
          rcases h5 with h5 | ⟨c, cs, h5, h6⟩
          · rw [h5] at h1; cases h1
          · rw [h5] at h1; injection h1 with h1 _; subst h1
            exact hF.letter hd c h2 ((stop c).mp h6)
        | cons c cs =>
          rw [h3] at h1
          simp only [List.cons_append, List.cons.injEq] at h1
          exact ⟨c, cs, rfl, by rw [h1.1]; exact h2⟩
      · rcases h5 with h5 | ⟨c, cs, h5, h6⟩
        · exact .inl h5
        · exact .inr ⟨c, cs, h5, (stop c).mp h6⟩
    · rintro ⟨rfl, ⟨c, cs, rfl, h1⟩, h2, h3⟩
      refine ⟨cs ++ r, c, ⟨rfl, h1⟩, rfl, fun d hd => (nstop d).mpr (h2 d hd), ?_⟩
      rcases h3 with h3 | ⟨d, ds, h3, h4⟩
      · exact .inl h3
      · exact .inr ⟨d, ds, h3, (stop d).mpr h4⟩

theorem nameText_err {F : Format} {c : Char} (h : ¬ NameStart F c) (s : Str) : nameText F (c :: s) = .err := by
  unfold nameText
  unfold NameStart at h
  cases hd : F.nonterminalDelimiter with
  | some ab =>
    obtain ⟨a, b⟩ := ab
    rw [hd] at h
    simp only [delimited, char_ne h, Res.andThen_of_err]
  | none =>
    rw [hd] at h
    simp only [satisfy, Res.andThen_err]
    left
    simp only [h, if_false]

theorem nameText_nil (F : Format) : nameText F [] = .err := by
  unfold nameText
  cases hd : F.nonterminalDelimiter with
  | some ab => rfl
  | none => rfl

theorem nameText_no_fuel (F : Format) (s : Str) : nameText F s ≠ .fuel := by
  unfold nameText
  cases hd : F.nonterminalDelimiter with
  | some ab =>
    obtain ⟨a, b⟩ := ab
    intro h
    simp only [delimited, Res.andThen_fuel] at h
    rcases h with h | ⟨_, _, _, h | ⟨_, _, _, h | ⟨_, _, _, h⟩⟩⟩
    · exact char_no_fuel _ _ h
    · cases h
    · exact char_no_fuel _ _ h
    · cases h
  | none =>
    intro h
    simp only [Res.andThen_fuel] at h
    rcases h with h | ⟨_, _, _, h⟩
    · cases s with
      | nil => cases h
      | cons c s => simp only [satisfy] at h; split at h <;> cases h
    · cases h

theorem Spec.Name.start {F : Format} {u s r} (h : Name F u s r) : ∃ c cs, s = c :: cs ∧ NameStart F c := by
  unfold Name at h
  unfold NameStart
  cases hd : F.nonterminalDelimiter with
  | some ab =>
    rw [hd] at h
    exact ⟨_, _, h.1, rfl⟩
  | none =>
    rw [hd] at h
    obtain ⟨h1, ⟨c, cs, rfl, h2⟩, _⟩ := h
    exact ⟨c, cs ++ r, h1, h2⟩

theorem Spec.Name.suffix {F : Format} {u s r} (h : Name F u s r) : (∃ v, s = v ++ r) ∧ r.length < s.length := by
  unfold Name at h
  cases hd : F.nonterminalDelimiter with
  | some ab =>
    obtain ⟨a, b⟩ := ab
    rw [hd] at h
    obtain ⟨rfl, _⟩ := h
    exact ⟨⟨a :: (u ++ [b]), by simp⟩, by simp; omega⟩
  | none =>
    rw [hd] at h
    obtain ⟨rfl, ⟨c, cs, rfl, h2⟩, _⟩ := h
    exact ⟨⟨_, rfl⟩, by simp; omega⟩

theorem quotedText_ok {s r u} : quotedText s = .ok r u ↔ Quoted u s r := by
  unfold quotedText
  rw [alt_ok]
  simp only [delimited_ok, char_ok, takeUntil_ok]
  constructor
  · rintro (⟨s1, x, s2, y, ⟨rfl, rfl⟩, ⟨r', rfl, rfl, h⟩, h1, rfl⟩ | ⟨_, s1, x, s2, y, ⟨rfl, rfl⟩, ⟨r', rfl, rfl, h⟩, h1, rfl⟩)
    · injection h1 with _ h1; subst h1; exact ⟨_, .inl rfl, h, rfl⟩
    · injection h1 with _ h1; subst h1; exact ⟨_, .inr rfl, h, rfl⟩
  · rintro ⟨q, rfl | rfl, h, rfl⟩
    · exact .inl ⟨_, _, _, _, ⟨rfl, rfl⟩, ⟨r, rfl, rfl, h⟩, rfl, rfl⟩
    · refine .inr ⟨?_, _, _, _, _, ⟨rfl, rfl⟩, ⟨r, rfl, rfl, h⟩, rfl, rfl⟩
      unfold delimited
      rw [char_ne (by decide)]
      rfl

theorem quotedText_err {c : Char} (h1 : c ≠ '"') (h2 : c ≠ '\'') (s : Str) : quotedText (c :: s) = .err := by
  unfold quotedText
  rw [alt_of_err]
  · unfold delimited
    rw [char_ne h2]
    rfl
  · unfold delimited
    rw [char_ne h1]
    rfl

theorem quotedText_nil : quotedText [] = .err := rfl

theorem quotedText_no_fuel (s : Str) : quotedText s ≠ .fuel := by
  unfold quotedText
  apply alt_no_fuel
  all_goals
    intro h
    simp only [delimited, Res.andThen_fuel] at h
    rcases h with h | ⟨_, _, _, h | ⟨_, _, _, h | ⟨_, _, _, h⟩⟩⟩
    · exact char_no_fuel _ _ h
    · exact takeUntil_no_fuel _ _ h
    · exact char_no_fuel _ _ h
    · cases h

theorem Spec.Quoted.start {u s r} (h : Quoted u s r) : ∃ c cs, s = c :: cs ∧ (c = '"' ∨ c = '\'') := by
  obtain ⟨q, h1, _, rfl⟩ := h
  exact ⟨q, _, rfl, h1⟩

theorem Spec.Quoted.suffix {u s r} (h : Quoted u s r) : (∃ v, s = v ++ r) ∧ r.length < s.length := by
  obtain ⟨q, _, _, rfl⟩ := h
  exact ⟨⟨q :: (u ++ [q]), by simp⟩, by simp; omega⟩

theorem Spec.Supported.regular {F : Format} (h : Supported F) : F.Regular := by
  cases h with
  | bnf => exact BNF_regular
  | abnf hf => exact ABNF_regular hf

end Bnf
