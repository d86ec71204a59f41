import Verif.Spec.DebugText
import Verif.Model.DebugText

/-! # The texts of `Debug` -/

set_option autoImplicit false

namespace Bnf
open Spec

/-! ## Hexadecimal digits -/

theorem digitChar_inj {a b : Nat} (ha : a < 16) (hb : b < 16) (h : a.digitChar = b.digitChar) : a = b := by
  have : ∀ a < 16, ∀ b < 16, a.digitChar = b.digitChar → a = b := by decide
  exact this a ha b hb h

theorem hex_inj {n m : Nat} (h : Nat.toDigits 16 n = Nat.toDigits 16 m) : n = m := by
  induction n using Nat.strongRecOn generalizing m with
  | _ n ih =>
    by_cases hn : n < 16
    · by_cases hm : m < 16
      · rw [Nat.toDigits_of_lt_base hn, Nat.toDigits_of_lt_base hm] at h
        exact digitChar_inj hn hm (by simpa using h)
      · rw [Nat.toDigits_of_lt_base hn, Nat.toDigits_of_base_le (by omega) (by omega)] at h
        have := congrArg List.length h
        have h2 : 0 < (Nat.toDigits 16 (m / 16)).length := by
          by_cases hq : m / 16 < 16
          · rw [Nat.toDigits_of_lt_base hq]; simp
          · rw [Nat.toDigits_of_base_le (by omega) (by omega)]; simp
        simp at this
    · by_cases hm : m < 16
      · rw [Nat.toDigits_of_lt_base hm, Nat.toDigits_of_base_le (by omega) (by omega)] at h
        have := congrArg List.length h
        have h2 : 0 < (Nat.toDigits 16 (n / 16)).length := by
          by_cases hq : n / 16 < 16
          · rw [Nat.toDigits_of_lt_base hq]; simp
          · rw [Nat.toDigits_of_base_le (by omega) (by omega)]; simp
        simp at this
      · rw [Nat.toDigits_of_base_le (by omega) (by omega), Nat.toDigits_of_base_le (b := 16) (n := m) (by omega) (by omega)] at h
        obtain ⟨h1, h2⟩ := List.append_inj' h rfl
        have h3 := ih (n / 16) (by omega) h1
        have h4 := digitChar_inj (Nat.mod_lt n (by omega)) (Nat.mod_lt m (by omega)) (by simpa using h2)
        omega

theorem hex_mem {n : Nat} {c : Char} (h : c ∈ Nat.toDigits 16 n) : ∃ k < 16, c = k.digitChar := by
  induction n using Nat.strongRecOn with
  | _ n ih =>
    by_cases hn : n < 16
    · rw [Nat.toDigits_of_lt_base hn] at h
      exact ⟨n, hn, by simpa using h⟩
    · rw [Nat.toDigits_of_base_le (by omega) (by omega)] at h
      rcases List.mem_append.mp h with h | h
      · exact ih _ (by omega) h
      · exact ⟨n % 16, Nat.mod_lt _ (by omega), by simpa using h⟩

theorem hex_brace (n : Nat) : '}' ∉ Nat.toDigits 16 n := by
  intro h
  obtain ⟨k, hk, h⟩ := hex_mem h
  have : ∀ k < 16, '}' ≠ k.digitChar := by decide
  exact this k hk h

/-! ## Escapes -/

theorem char_eq_iff {c d : Char} : c = d ↔ c.toNat = d.toNat := ⟨fun h => h ▸ rfl, fun h => Char.ext (UInt32.toNat_inj.mp h)⟩

/-- The model writes the escapes of the specification. -/
theorem escapeDebug_eq (plain : Char → Bool) (c : Char) : escapeDebug plain c = escaped plain c := by
  unfold escapeDebug escaped
  simp only [char_eq_iff]
  rw [show ('\x00' : Char).toNat = 0 from rfl, show ('\t' : Char).toNat = 9 from rfl, show ('\r' : Char).toNat = 13 from rfl,
    show ('\n' : Char).toNat = 10 from rfl, show ('\\' : Char).toNat = 92 from rfl, show ('"' : Char).toNat = 34 from rfl]
  split
  · rename_i h; rw [h]; rfl
  · split
    · rename_i h; rw [h]; rfl
    · split
      · rename_i h; rw [h]; rfl
      · split
        · rename_i h; rw [h]; rfl
        · split
          · rename_i h; rw [h]; rfl
          · split
            · rename_i h; rw [h]; rfl
            · split
              · split <;> first | omega | rw [if_pos (.inl (by omega))]
              · split
                · rename_i h
                  split <;> first | omega | rw [if_pos (.inr h)]
                · rename_i h1 h2
                  split <;> first | omega | (rw [if_neg (by rintro (h | h); omega; exact h2 h)]; rfl)

theorem strDebug_eq (plain : Char → Bool) (s : Str) : strDebug plain s = quotedDebug plain s := by
  unfold strDebug quotedDebug
  rw [List.flatMap_def, show escapeDebug plain = escaped plain from funext (escapeDebug_eq plain)]
  rfl

/-- What the second character of a short escape stands for. -/
def unshort (k : Char) : Char :=
  if k = '0' then '\x00' else if k = 't' then '\t' else if k = 'r' then '\r' else if k = 'n' then '\n' else k

theorem escape_cases (plain : Char → Bool) (c : Char) :
    (escapeDebug plain c = [c] ∧ c ≠ '\\' ∧ c ≠ '"') ∨ (∃ k, escapeDebug plain c = ['\\', k] ∧ k ≠ 'u' ∧ unshort k = c) ∨
      escapeDebug plain c = escapeUnicode c := by
  by_cases h0 : c = '\x00'
  · subst h0; exact .inr (.inl ⟨'0', rfl, by decide, rfl⟩)
  by_cases h1 : c = '\t'
  · subst h1; exact .inr (.inl ⟨'t', rfl, by decide, rfl⟩)
  by_cases h2 : c = '\r'
  · subst h2; exact .inr (.inl ⟨'r', rfl, by decide, rfl⟩)
  by_cases h3 : c = '\n'
  · subst h3; exact .inr (.inl ⟨'n', rfl, by decide, rfl⟩)
  by_cases h4 : c = '\\'
  · subst h4; exact .inr (.inl ⟨'\\', rfl, by decide, rfl⟩)
  by_cases h5 : c = '"'
  · subst h5; exact .inr (.inl ⟨'"', rfl, by decide, rfl⟩)
  unfold escapeDebug
  rw [if_neg h0, if_neg h1, if_neg h2, if_neg h3, if_neg h4, if_neg h5]
  split
  · exact .inl ⟨rfl, h4, h5⟩
  · split
    · exact .inl ⟨rfl, h4, h5⟩
    · exact .inr (.inr rfl)

theorem split_brace {a a' r r' : Str} (h : '}' ∉ a) (h' : '}' ∉ a') (e : a ++ '}' :: r = a' ++ '}' :: r') : a = a' ∧ r = r' := by
  induction a generalizing a' with
  | nil =>
    cases a' with
    | nil => exact ⟨rfl, by simpa using e⟩
    | cons d a' =>
      simp only [List.nil_append, List.cons_append, List.cons.injEq] at e
      exact absurd (e.1 ▸ List.mem_cons_self) h'
  | cons d a ih =>
    cases a' with
    | nil =>
      simp only [List.nil_append, List.cons_append, List.cons.injEq] at e
      exact absurd (e.1 ▸ List.mem_cons_self) h
    | cons d' a' =>
      simp only [List.cons_append, List.cons.injEq] at e
      replace e := e
      obtain ⟨rfl, e⟩ := e
      obtain ⟨rfl, rfl⟩ := ih (fun h1 => h (List.mem_cons_of_mem _ h1)) (fun h1 => h' (List.mem_cons_of_mem _ h1)) e
      exact ⟨rfl, rfl⟩

theorem escape_delim (plain : Char → Bool) {c c' : Char} {r r' : Str} (h : escapeDebug plain c ++ r = escapeDebug plain c' ++ r') : c = c' ∧ r = r' := by
  rcases escape_cases plain c with ⟨e, h1, h2⟩ | ⟨k, e, hu, hk⟩ | e <;> rcases escape_cases plain c' with ⟨e', h1', h2'⟩ | ⟨k', e', hu', hk'⟩ | e' <;>
    rw [e, e'] at h
  · simpa using h
  · simp only [List.cons_append, List.cons.injEq] at h; exact absurd h.1 h1
  · simp only [escapeUnicode, List.cons_append, List.cons.injEq] at h; exact absurd h.1 h1
  · simp only [List.cons_append, List.cons.injEq] at h; exact absurd h.1.symm h1'
  · simp only [List.cons_append, List.nil_append, List.cons.injEq, true_and] at h
    exact ⟨by rw [← hk, ← hk', h.1], h.2⟩
  · simp only [escapeUnicode, List.cons_append, List.nil_append, List.cons.injEq, true_and] at h; exact absurd h.1 hu
  · simp only [escapeUnicode, List.cons_append, List.cons.injEq] at h; exact absurd h.1.symm h1'
  · simp only [escapeUnicode, List.cons_append, List.nil_append, List.cons.injEq, true_and] at h; exact absurd h.1.symm hu'
  · simp only [escapeUnicode, List.cons_append, List.nil_append, List.append_assoc, List.cons.injEq, true_and] at h
    obtain ⟨h1, h2⟩ := split_brace (hex_brace _) (hex_brace _) h
    exact ⟨char_eq_iff.mpr (hex_inj h1), h2⟩

theorem escape_head (plain : Char → Bool) (c : Char) : ∃ d x, escapeDebug plain c = d :: x ∧ d ≠ '"' := by
  rcases escape_cases plain c with ⟨e, _, h⟩ | ⟨k, e, _⟩ | e
  · exact ⟨c, [], e, h⟩
  · exact ⟨_, _, e, by decide⟩
  · exact ⟨_, _, e, by decide⟩

/-! ## Texts that determine what they stand for and where they end -/

/-- Two texts that begin alike stand for the same. -/
def Delim {α : Type} (f : α → Str) : Prop := ∀ a b r r', f a ++ r = f b ++ r' → a = b ∧ r = r'

theorem Delim.inj {α : Type} {f : α → Str} (h : Delim f) {a b : α} (e : f a = f b) : a = b := (h a b [] [] (by simpa using e)).1

theorem quoted_delim (plain : Char → Bool) : Delim (quotedDebug plain) := by
  intro s s' r r' h
  simp only [← strDebug_eq, strDebug, List.cons_append, List.append_assoc, List.cons.injEq, true_and, List.nil_append] at h
  induction s generalizing s' with
  | nil =>
    cases s' with
    | nil => exact ⟨rfl, by simpa using h⟩
    | cons c s' =>
      obtain ⟨d, x, e, hd⟩ := escape_head plain c
      simp only [List.flatMap_nil, List.nil_append, List.flatMap_cons, e, List.cons_append, List.cons.injEq] at h
      exact absurd h.1.symm hd
  | cons c s ih =>
    cases s' with
    | nil =>
      obtain ⟨d, x, e, hd⟩ := escape_head plain c
      simp only [List.flatMap_nil, List.nil_append, List.flatMap_cons, e, List.cons_append, List.cons.injEq] at h
      exact absurd h.1 hd
    | cons c' s' =>
      simp only [List.flatMap_cons, List.append_assoc] at h
      replace h := escape_delim plain h
      obtain ⟨rfl, h⟩ := h
      obtain ⟨rfl, rfl⟩ := ih _ h
      exact ⟨rfl, rfl⟩

/-! ### Lists -/

section
variable {α : Type} {f : α → Str}

/-- The first character is not a bracket or a comma. -/
def Begins (f : α → Str) : Prop := ∀ a, ∃ d x, f a = d :: x ∧ d ≠ ']'

theorem intersperse_tail (x : Str) (xs : List Str) : ((x :: xs).intersperse [',', ' ']).flatten = x ++ (xs.map fun y => [',', ' '] ++ y).flatten := by
  induction xs generalizing x with
  | nil => simp
  | cons y ys ih =>
    rw [List.intersperse_cons_cons]
    simp only [List.flatten_cons, ih, List.map_cons, List.append_assoc]

theorem tail_delim {l l' : List α} (h : ∀ a ∈ l, ∀ b r r', f a ++ r = f b ++ r' → a = b ∧ r = r') {r r' : Str}
    (e : (l.map fun a => [',', ' '] ++ f a).flatten ++ ']' :: r = (l'.map fun a => [',', ' '] ++ f a).flatten ++ ']' :: r') : l = l' ∧ r = r' := by
  induction l generalizing l' with
  | nil =>
    cases l' with
    | nil => exact ⟨rfl, by simpa using e⟩
    | cons a l' => simp at e
  | cons a l ih =>
    cases l' with
    | nil => simp at e
    | cons a' l' =>
      simp only [List.map_cons, List.flatten_cons, List.append_assoc, List.cons_append, List.nil_append, List.cons.injEq, true_and] at e
      replace e := h a List.mem_cons_self _ _ _ e
      obtain ⟨rfl, e⟩ := e
      obtain ⟨rfl, rfl⟩ := ih (fun b hb => h b (List.mem_cons_of_mem _ hb)) e
      exact ⟨rfl, rfl⟩

theorem bracketed_delim {l l' : List α} (hb : Begins f) (h : ∀ a ∈ l, ∀ b r r', f a ++ r = f b ++ r' → a = b ∧ r = r') {r r' : Str}
    (e : bracketed (l.map f) ++ r = bracketed (l'.map f) ++ r') : l = l' ∧ r = r' := by
  simp only [bracketed] at e
  change '[' :: ((l.map f).intersperse [',', ' ']).flatten ++ [']'] ++ r = '[' :: ((l'.map f).intersperse [',', ' ']).flatten ++ [']'] ++ r' at e
  cases l with
  | nil =>
    cases l' with
    | nil => exact ⟨rfl, by simpa using e⟩
    | cons a l' =>
      obtain ⟨d, x, ha, hd⟩ := hb a
      rw [List.map_cons, intersperse_tail, ha] at e
      simp at e
      exact absurd e.1.symm hd
  | cons a l =>
    cases l' with
    | nil =>
      obtain ⟨d, x, ha, hd⟩ := hb a
      rw [List.map_cons, intersperse_tail, ha] at e
      simp at e
      exact absurd e.1 hd
    | cons a' l' =>
      rw [List.map_cons, intersperse_tail, List.map_cons, intersperse_tail] at e
      simp only [List.cons_append, List.append_assoc, List.cons.injEq, true_and, List.nil_append] at e
      replace e := h a List.mem_cons_self _ _ _ e
      obtain ⟨rfl, e⟩ := e
      rw [List.map_map, List.map_map] at e
      obtain ⟨rfl, rfl⟩ := tail_delim (fun b hb => h b (List.mem_cons_of_mem _ hb)) e
      exact ⟨rfl, rfl⟩

theorem newLine_succ (d : Nat) (x : Str) : newLine (d + 1) ++ x = newLine d ++ (' ' :: ' ' :: ' ' :: ' ' :: x) := by
  simp only [newLine, show 4 * (d + 1) = 4 * d + 4 from by omega, ← List.replicate_append_replicate, List.append_assoc]
  rfl

theorem vert_tail {d : Nat} {l l' : List α} (h : ∀ a ∈ l, ∀ b r r', f a ++ r = f b ++ r' → a = b ∧ r = r') {r r' : Str}
    (e : (l.map fun a => newLine (d + 1) ++ f a ++ [',']).flatten ++ newLine d ++ ']' :: r =
      (l'.map fun a => newLine (d + 1) ++ f a ++ [',']).flatten ++ newLine d ++ ']' :: r') : l = l' ∧ r = r' := by
  induction l generalizing l' with
  | nil =>
    cases l' with
    | nil => exact ⟨rfl, by simpa using e⟩
    | cons a l' =>
      simp only [List.map_nil, List.flatten_nil, List.nil_append, List.map_cons, List.flatten_cons, List.append_assoc, newLine_succ] at e
      simpa using List.append_cancel_left e
  | cons a l ih =>
    cases l' with
    | nil =>
      simp only [List.map_nil, List.flatten_nil, List.nil_append, List.map_cons, List.flatten_cons, List.append_assoc, newLine_succ] at e
      simpa using List.append_cancel_left e
    | cons a' l' =>
      simp only [List.map_cons, List.flatten_cons, List.append_assoc] at e
      replace e := h a List.mem_cons_self _ _ _ (List.append_cancel_left e)
      obtain ⟨rfl, e⟩ := e
      simp only [List.cons_append, List.nil_append, List.cons.injEq, true_and] at e
      obtain ⟨rfl, rfl⟩ := ih (fun b hb => h b (List.mem_cons_of_mem _ hb)) (by simpa only [List.append_assoc] using e)
      exact ⟨rfl, rfl⟩

theorem vertical_eq (d : Nat) (a : Str) (l : List Str) :
    vertical d (a :: l) = '[' :: ((a :: l).map fun x => newLine (d + 1) ++ x ++ [',']).flatten ++ newLine d ++ [']'] := rfl

theorem vertical_delim {d : Nat} {l l' : List α} (h : ∀ a ∈ l, ∀ b r r', f a ++ r = f b ++ r' → a = b ∧ r = r') {r r' : Str}
    (e : vertical d (l.map f) ++ r = vertical d (l'.map f) ++ r') : l = l' ∧ r = r' := by
  cases l with
  | nil =>
    cases l' with
    | nil => exact ⟨rfl, by simpa [vertical] using e⟩
    | cons a l' =>
      rw [List.map_cons, vertical_eq] at e
      simp [vertical, newLine] at e
  | cons a l =>
    cases l' with
    | nil =>
      rw [List.map_cons, vertical_eq] at e
      simp [vertical, newLine] at e
    | cons a' l' =>
      rw [show (a :: l).map f = f a :: l.map f from rfl, show (a' :: l').map f = f a' :: l'.map f from rfl, vertical_eq, vertical_eq,
        ← List.map_cons (f := f), ← List.map_cons (f := f), List.map_map, List.map_map] at e
      simp only [List.cons_append, List.append_assoc, List.cons.injEq, true_and, List.nil_append] at e
      exact vert_tail h (by simpa only [List.append_assoc, Function.comp_def] using e)
end

/-! ## Grammars -/

section
variable (plain : Char → Bool)

theorem term_delim : Delim (debugTerm plain) := by
  intro a b r r' e
  cases a <;> cases b <;> simp only [debugTerm, List.append_assoc] at e
  · replace e := quoted_delim plain _ _ _ _ (List.append_cancel_left e)
    obtain ⟨rfl, e⟩ := e
    exact ⟨rfl, List.append_cancel_left e⟩
  · simp at e
  · simp at e
  · replace e := quoted_delim plain _ _ _ _ (List.append_cancel_left e)
    obtain ⟨rfl, e⟩ := e
    exact ⟨rfl, List.append_cancel_left e⟩

theorem term_begins : Begins (debugTerm plain) := by
  intro a
  cases a
  · exact ⟨'T', _, rfl, by decide⟩
  · exact ⟨'N', _, rfl, by decide⟩

theorem expression_delim : Delim (debugExpression plain) := by
  intro a b r r' e
  simp only [debugExpression, List.append_assoc] at e
  obtain ⟨h, e⟩ := bracketed_delim (term_begins plain) (fun a _ => term_delim plain a) (List.append_cancel_left e)
  exact ⟨by cases a; cases b; simpa using h, List.append_cancel_left e⟩

theorem expression_begins : Begins (debugExpression plain) := fun _ => ⟨'E', _, rfl, by decide⟩

theorem production_delim : Delim (debugProduction plain) := by
  intro a b r r' e
  simp only [debugProduction, List.append_assoc] at e
  obtain ⟨h, e⟩ := term_delim plain _ _ _ _ (List.append_cancel_left e)
  obtain ⟨h', e⟩ := bracketed_delim (expression_begins plain) (fun a _ => expression_delim plain a) (List.append_cancel_left e)
  exact ⟨by cases a; cases b; simp_all, List.append_cancel_left e⟩

theorem production_begins : Begins (debugProduction plain) := fun _ => ⟨'P', _, rfl, by decide⟩

theorem grammar_delim : Delim (debugGrammar plain) := by
  intro a b r r' e
  simp only [debugGrammar, List.append_assoc] at e
  obtain ⟨h, e⟩ := bracketed_delim (production_begins plain) (fun a _ => production_delim plain a) (List.append_cancel_left e)
  exact ⟨by cases a; cases b; simpa using h, List.append_cancel_left e⟩

theorem debugNodes_map (l : List ParseTreeNode) : debugNodes plain l = l.map (debugNode plain) := by
  induction l with
  | nil => rfl
  | cons n ns ih => rw [debugNodes, ih]; rfl

theorem node_begins : Begins (debugNode plain) := by
  intro a
  cases a
  · exact ⟨'T', _, by rw [debugNode]; rfl, by decide⟩
  · exact ⟨'N', _, by rw [debugNode]; rfl, by decide⟩

mutual
theorem node_delim (a : ParseTreeNode) : ∀ b r r', debugNode plain a ++ r = debugNode plain b ++ r' → a = b ∧ r = r' := by
  intro b r r' e
  match a, b with
  | .terminal s, .terminal s' =>
    simp only [debugNode, List.append_assoc] at e
    replace e := quoted_delim plain _ _ _ _ (List.append_cancel_left e)
    obtain ⟨rfl, e⟩ := e
    exact ⟨rfl, List.append_cancel_left e⟩
  | .terminal s, .nonterminal l rs => simp [debugNode] at e
  | .nonterminal l rs, .terminal s => simp [debugNode] at e
  | .nonterminal l rs, .nonterminal l' rs' =>
    simp only [debugNode, debugTreeOf, List.append_assoc, debugNodes_map] at e
    replace e := term_delim plain _ _ _ _ (List.append_cancel_left (List.append_cancel_left e))
    obtain ⟨rfl, e⟩ := e
    replace e := bracketed_delim (node_begins plain) (nodes_delim rs) (List.append_cancel_left e)
    obtain ⟨rfl, e⟩ := e
    exact ⟨rfl, List.append_cancel_left (List.append_cancel_left e)⟩
theorem nodes_delim (l : List ParseTreeNode) : ∀ a ∈ l, ∀ b r r', debugNode plain a ++ r = debugNode plain b ++ r' → a = b ∧ r = r' := by
  match l with
  | [] => simp
  | n :: ns =>
    intro a ha
    rcases List.mem_cons.mp ha with h | h
    · rw [h]; exact node_delim n
    · exact nodes_delim ns a h
end

theorem tree_delim : Delim (debugTree plain) := by
  intro a b r r' e
  simp only [debugTree, debugTreeOf, List.append_assoc, debugNodes_map] at e
  obtain ⟨h, e⟩ := term_delim plain _ _ _ _ (List.append_cancel_left e)
  obtain ⟨h', e⟩ := bracketed_delim (node_begins plain) (nodes_delim plain _) (List.append_cancel_left e)
  exact ⟨by cases a; cases b; simp_all, List.append_cancel_left e⟩

/-! ## … with line feeds -/

theorem prettyTerm_delim (d : Nat) : Delim (prettyTerm plain d) := by
  intro a b r r' e
  cases a <;> cases b <;> simp only [prettyTerm, List.append_assoc] at e
  · replace e := quoted_delim plain _ _ _ _ (List.append_cancel_left (List.append_cancel_left e))
    obtain ⟨rfl, e⟩ := e
    exact ⟨rfl, List.append_cancel_left (List.append_cancel_left (List.append_cancel_left e))⟩
  · simp at e
  · simp at e
  · replace e := quoted_delim plain _ _ _ _ (List.append_cancel_left (List.append_cancel_left e))
    obtain ⟨rfl, e⟩ := e
    exact ⟨rfl, List.append_cancel_left (List.append_cancel_left (List.append_cancel_left e))⟩

theorem prettyExpression_delim (d : Nat) : Delim (prettyExpression plain d) := by
  intro a b r r' e
  simp only [prettyExpression, List.append_assoc] at e
  obtain ⟨h, e⟩ := vertical_delim (fun a _ => prettyTerm_delim plain _ a) (List.append_cancel_left (List.append_cancel_left (List.append_cancel_left e)))
  exact ⟨by cases a; cases b; simpa using h, List.append_cancel_left (List.append_cancel_left (List.append_cancel_left e))⟩

theorem prettyProduction_delim (d : Nat) : Delim (prettyProduction plain d) := by
  intro a b r r' e
  simp only [prettyProduction, List.append_assoc] at e
  obtain ⟨h, e⟩ := prettyTerm_delim plain _ _ _ _ _ (List.append_cancel_left (List.append_cancel_left (List.append_cancel_left e)))
  obtain ⟨h', e⟩ := vertical_delim (fun a _ => prettyExpression_delim plain _ a)
    (List.append_cancel_left (List.append_cancel_left (List.append_cancel_left e)))
  exact ⟨by cases a; cases b; simp_all, List.append_cancel_left (List.append_cancel_left (List.append_cancel_left e))⟩

theorem prettyGrammar_delim (d : Nat) : Delim (prettyDebug plain d) := by
  intro a b r r' e
  simp only [prettyDebug, List.append_assoc] at e
  obtain ⟨h, e⟩ := vertical_delim (fun a _ => prettyProduction_delim plain _ a)
    (List.append_cancel_left (List.append_cancel_left (List.append_cancel_left e)))
  exact ⟨by cases a; cases b; simpa using h, List.append_cancel_left (List.append_cancel_left (List.append_cancel_left e))⟩

theorem prettyNodes_map (d : Nat) (l : List ParseTreeNode) : prettyNodes plain d l = l.map (prettyNode plain d) := by
  induction l with
  | nil => rfl
  | cons n ns ih => rw [prettyNodes, ih]; rfl

mutual
theorem prettyNode_delim (d : Nat) (a : ParseTreeNode) : ∀ b r r', prettyNode plain d a ++ r = prettyNode plain d b ++ r' → a = b ∧ r = r' := by
  intro b r r' e
  match a, b with
  | .terminal s, .terminal s' =>
    simp only [prettyNode, List.append_assoc] at e
    replace e := quoted_delim plain _ _ _ _ (List.append_cancel_left (List.append_cancel_left e))
    obtain ⟨rfl, e⟩ := e
    exact ⟨rfl, List.append_cancel_left (List.append_cancel_left (List.append_cancel_left e))⟩
  | .terminal s, .nonterminal l rs => simp [prettyNode] at e
  | .nonterminal l rs, .terminal s => simp [prettyNode] at e
  | .nonterminal l rs, .nonterminal l' rs' =>
    simp only [prettyNode, prettyTreeOf, List.append_assoc, prettyNodes_map] at e
    replace e := prettyTerm_delim plain _ _ _ _ _
      (List.append_cancel_left (List.append_cancel_left (List.append_cancel_left (List.append_cancel_left (List.append_cancel_left e)))))
    obtain ⟨rfl, e⟩ := e
    replace e := vertical_delim (prettyNodes_delim _ rs) (List.append_cancel_left (List.append_cancel_left (List.append_cancel_left e)))
    obtain ⟨rfl, e⟩ := e
    exact ⟨rfl, List.append_cancel_left (List.append_cancel_left (List.append_cancel_left
      (List.append_cancel_left (List.append_cancel_left (List.append_cancel_left e)))))⟩
theorem prettyNodes_delim (d : Nat) (l : List ParseTreeNode) :
    ∀ a ∈ l, ∀ b r r', prettyNode plain d a ++ r = prettyNode plain d b ++ r' → a = b ∧ r = r' := by
  match l with
  | [] => simp
  | n :: ns =>
    intro a ha
    rcases List.mem_cons.mp ha with h | h
    · rw [h]; exact prettyNode_delim d n
    · exact prettyNodes_delim d ns a h
end

theorem prettyTree_delim (d : Nat) : Delim (prettyTree plain d) := by
  intro a b r r' e
  simp only [prettyTree, prettyTreeOf, List.append_assoc, prettyNodes_map] at e
  obtain ⟨h, e⟩ := prettyTerm_delim plain _ _ _ _ _ (List.append_cancel_left (List.append_cancel_left (List.append_cancel_left e)))
  obtain ⟨h', e⟩ := vertical_delim (prettyNodes_delim plain _ _) (List.append_cancel_left (List.append_cancel_left (List.append_cancel_left e)))
  exact ⟨by cases a; cases b; simp_all, List.append_cancel_left (List.append_cancel_left (List.append_cancel_left e))⟩
end

/-! ## The model writes these texts -/

section
variable (plain : Char → Bool)

theorem vals_compact (l : List DVal) (first : Bool) : (DVals.ofList l).compact plain first =
    if first then ((l.map (DVal.compact plain)).intersperse [',', ' ']).flatten else (l.map fun v => [',', ' '] ++ v.compact plain).flatten := by
  induction l generalizing first with
  | nil => cases first <;> simp [DVals.ofList, DVals.compact]
  | cons v vs ih =>
    cases first
    · simp [DVals.ofList, DVals.compact, ih]
    · simp only [DVals.ofList, DVals.compact, ih, if_true, List.map_cons, intersperse_tail, List.map_map]
      simp [Function.comp_def]

theorem list_compact (l : List DVal) : (DVal.list (.ofList l)).compact plain = bracketed (l.map (DVal.compact plain)) := by
  rw [DVal.compact, vals_compact]
  rfl

theorem term_compact (t : Term) : t.debugVal.compact plain = debugTerm plain t := by
  cases t <;> simp [Term.debugVal, DVal.compact, debugTerm, strDebug_eq]

theorem expression_compact (e : Expression) : e.debugVal.compact plain = debugExpression plain e := by
  rw [Expression.debugVal, DVal.compact, DFields.compact, DFields.compact, list_compact, List.map_map,
    show DVal.compact plain ∘ Term.debugVal = debugTerm plain from funext (term_compact plain)]
  simp only [debugExpression, if_true, List.append_assoc, List.cons_append, List.nil_append]

theorem production_compact (p : Production) : p.debugVal.compact plain = debugProduction plain p := by
  rw [Production.debugVal, DVal.compact, DFields.compact, DFields.compact, DFields.compact, list_compact, List.map_map,
    show DVal.compact plain ∘ Expression.debugVal = debugExpression plain from funext (expression_compact plain), term_compact]
  simp [debugProduction]

theorem grammar_compact (g : Grammar) : g.debugVal.compact plain = debugGrammar plain g := by
  rw [Grammar.debugVal, DVal.compact, DFields.compact, DFields.compact, list_compact, List.map_map,
    show DVal.compact plain ∘ Production.debugVal = debugProduction plain from funext (production_compact plain)]
  simp [debugGrammar]

theorem nodesVal_eq (l : List ParseTreeNode) : nodesVal l = DVals.ofList (l.map ParseTreeNode.debugVal) := by
  induction l with
  | nil => rfl
  | cons n ns ih => rw [nodesVal, ih]; rfl

theorem treeVal_compact (lhs : Term) (rhs : List ParseTreeNode) (h : ∀ n ∈ rhs, n.debugVal.compact plain = debugNode plain n) :
    (treeVal lhs (nodesVal rhs)).compact plain = debugTreeOf plain lhs (debugNodes plain rhs) := by
  rw [treeVal, DVal.compact, DFields.compact, DFields.compact, DFields.compact, nodesVal_eq, list_compact, List.map_map, term_compact, debugNodes_map,
    List.map_congr_left (f := DVal.compact plain ∘ ParseTreeNode.debugVal) (g := debugNode plain) (fun n hn => h n hn)]
  simp [debugTreeOf]

mutual
theorem node_compact (n : ParseTreeNode) : n.debugVal.compact plain = debugNode plain n := by
  match n with
  | .terminal s => simp [ParseTreeNode.debugVal, DVal.compact, debugNode, strDebug_eq]
  | .nonterminal lhs rhs =>
    rw [ParseTreeNode.debugVal, DVal.compact, debugNode, treeVal_compact plain lhs rhs (nodes_compact rhs)]
    simp
theorem nodes_compact (l : List ParseTreeNode) : ∀ n ∈ l, n.debugVal.compact plain = debugNode plain n := by
  match l with
  | [] => simp
  | a :: l =>
    intro n hn
    rcases List.mem_cons.mp hn with h | h
    · rw [h]; exact node_compact a
    · exact nodes_compact l n h
end

/-! ### Line by line -/

/-- Whether the text ends a line (`b` if it is empty). -/
def lastNL : Bool → Str → Bool
  | b, [] => b
  | _, c :: cs => lastNL (c == '\n') cs

theorem pad_append (b : Bool) (x y : Str) : pad b (x ++ y) = pad b x ++ pad (lastNL b x) y := by
  induction x generalizing b with
  | nil => rfl
  | cons c x ih => simp only [List.cons_append, pad, ih, lastNL, List.append_assoc]

theorem lastNL_append (b : Bool) (x y : Str) : lastNL b (x ++ y) = lastNL (lastNL b x) y := by
  induction x generalizing b with
  | nil => rfl
  | cons c x ih => simp only [List.cons_append, lastNL, ih]

theorem pad_true {x : Str} (h : x ≠ []) : pad true x = [' ', ' ', ' ', ' '] ++ pad false x := by
  cases x with
  | nil => exact absurd rfl h
  | cons c x => rfl

theorem pad_clean {x : Str} (h : '\n' ∉ x) : pad false x = x ∧ lastNL false x = false := by
  induction x with
  | nil => exact ⟨rfl, rfl⟩
  | cons c x ih =>
    have hc : (c == '\n') = false := by
      simp only [beq_eq_false_iff_ne]
      rintro rfl
      exact h List.mem_cons_self
    obtain ⟨h1, h2⟩ := ih fun h' => h (List.mem_cons_of_mem _ h')
    simp only [pad, hc, h1, lastNL, h2, and_true]
    rfl

theorem pad_newLine (d : Nat) {x : Str} (h : x ≠ []) : pad false (newLine d ++ x) = newLine (d + 1) ++ pad false x := by
  have h1 : ∀ k (x : Str), pad false (List.replicate k ' ' ++ x) = List.replicate k ' ' ++ pad false x := by
    intro k x
    have hc : '\n' ∉ List.replicate k ' ' := by
      intro h
      exact absurd (List.eq_of_mem_replicate h) (by decide)
    rw [pad_append, (pad_clean hc).1, (pad_clean hc).2]
  rw [newLine_succ, newLine]
  change pad false ('\n' :: (List.replicate (4 * d) ' ' ++ x)) = '\n' :: List.replicate (4 * d) ' ' ++ ' ' :: ' ' :: ' ' :: ' ' :: pad false x
  rw [pad]
  simp only [beq_self_eq_true, Bool.false_eq_true, if_false, List.nil_append, List.cons_append, List.cons.injEq, true_and]
  rw [pad_true (by simp [h]), h1]
  have h2 : ∀ k (y : Str), [' ', ' ', ' ', ' '] ++ (List.replicate k ' ' ++ y) = List.replicate k ' ' ++ ' ' :: ' ' :: ' ' :: ' ' :: y := by
    intro k y
    rw [show ([' ', ' ', ' ', ' '] : Str) = List.replicate 4 ' ' from rfl, ← List.append_assoc, List.replicate_append_replicate, Nat.add_comm,
      ← List.replicate_append_replicate, List.append_assoc]
    rfl
  exact h2 _ _

theorem lastNL_newLine (d : Nat) (b : Bool) {x : Str} (h : x ≠ []) : lastNL b (newLine d ++ x) = lastNL false x := by
  rw [lastNL_append]
  cases x with
  | nil => exact absurd rfl h
  | cons c x => rfl

mutual
/-- A value that begins in a line indented by `d` steps. -/
def DVal.at (plain : Char → Bool) (d : Nat) : DVal → Str
  | .str s => strDebug plain s
  | .tuple name v => name ++ ['('] ++ newLine (d + 1) ++ (v.at plain (d + 1) ++ [',']) ++ newLine d ++ [')']
  | .struct name fs => name ++ fs.at plain d true
  | .list vs => ['['] ++ vs.at plain d true
def DFields.at (plain : Char → Bool) (d : Nat) : Bool → DFields → Str
  | true, .nil => []
  | false, .nil => newLine d ++ ['}']
  | first, .cons name v fs => (if first then [' ', '{'] else []) ++ (newLine (d + 1) ++ (name ++ [':', ' '] ++ v.at plain (d + 1) ++ [','])) ++ fs.at plain d false
def DVals.at (plain : Char → Bool) (d : Nat) : Bool → DVals → Str
  | true, .nil => [']']
  | false, .nil => newLine d ++ [']']
  | _, .cons v vs => newLine (d + 1) ++ (v.at plain (d + 1) ++ [',']) ++ vs.at plain d false
end

mutual
/-- No name contains a line feed. -/
def DVal.Clean : DVal → Prop
  | .str _ => True
  | .tuple name v => '\n' ∉ name ∧ v.Clean
  | .struct name fs => '\n' ∉ name ∧ fs.Clean
  | .list vs => vs.Clean
def DFields.Clean : DFields → Prop
  | .nil => True
  | .cons name v fs => '\n' ∉ name ∧ v.Clean ∧ fs.Clean
def DVals.Clean : DVals → Prop
  | .nil => True
  | .cons v vs => v.Clean ∧ vs.Clean
end

theorem escape_clean (c : Char) : '\n' ∉ escapeDebug plain c := by
  intro h
  rcases escape_cases plain c with ⟨e, _, _⟩ | ⟨k, e, _, hk⟩ | e
  · rw [e] at h
    have : c = '\n' := (List.mem_singleton.mp h).symm
    subst this
    change ['\\', 'n'] = ['\n'] at e
    exact absurd e (by decide)
  · rw [e] at h
    simp only [List.mem_cons, List.not_mem_nil, or_false] at h
    rcases h with h | h
    · exact absurd h (by decide)
    · subst h
      have : c = '\n' := hk.symm.trans (by decide)
      subst this
      change ['\\', 'n'] = ['\\', '\n'] at e
      exact absurd e (by decide)
  · rw [e] at h
    simp only [escapeUnicode, List.mem_append, List.mem_cons, List.not_mem_nil, or_false] at h
    rcases h with ((h | h | h) | h) | h
    · exact absurd h (by decide)
    · exact absurd h (by decide)
    · exact absurd h (by decide)
    · obtain ⟨k, hk, h⟩ := hex_mem h
      have : ∀ k < 16, '\n' ≠ k.digitChar := by decide
      exact this k hk h
    · exact absurd h (by decide)

theorem strDebug_clean (s : Str) : '\n' ∉ strDebug plain s := by
  intro h
  simp only [strDebug, List.cons_append, List.mem_cons, List.mem_append, List.mem_flatMap, List.not_mem_nil, or_false] at h
  rcases h with h | ⟨c, _, h⟩ | h
  · exact absurd h (by decide)
  · exact escape_clean plain c h
  · exact absurd h (by decide)

theorem pad_two {x x' y y' : Str} (h : pad false x = x' ∧ lastNL false x = false) (h' : pad false y = y' ∧ lastNL false y = false) :
    pad false (x ++ y) = x' ++ y' ∧ lastNL false (x ++ y) = false := by
  rw [pad_append, lastNL_append, h.1, h.2, h'.1, h'.2]
  exact ⟨rfl, rfl⟩

theorem pad_line (d : Nat) {x x' : Str} (hx : x ≠ []) (h : pad false x = x' ∧ lastNL false x = false) :
    pad false (newLine d ++ x) = newLine (d + 1) ++ x' ∧ lastNL false (newLine d ++ x) = false := by
  rw [pad_newLine d hx, lastNL_newLine d _ hx, h.1, h.2]
  exact ⟨rfl, rfl⟩

mutual
theorem pad_at (v : DVal) (d : Nat) (h : v.Clean) : pad false (v.at plain d) = v.at plain (d + 1) ∧ lastNL false (v.at plain d) = false := by
  match v with
  | .str s => rw [DVal.at, DVal.at]; exact pad_clean (strDebug_clean plain s)
  | .tuple name v =>
    rw [DVal.Clean] at h
    rw [DVal.at, DVal.at, show ∀ (a b c e f : Str), a ++ b ++ c ++ e ++ f = a ++ (b ++ c) ++ (e ++ f) from fun a b c e f => by simp,
      show ∀ (a b c e f : Str), a ++ b ++ c ++ e ++ f = a ++ (b ++ c) ++ (e ++ f) from fun a b c e f => by simp]
    refine pad_two (pad_two (pad_two (pad_clean h.1) ⟨rfl, rfl⟩) (pad_line _ (by simp) (pad_two (pad_at v _ h.2) ⟨rfl, rfl⟩))) (pad_line _ (by simp) ⟨rfl, rfl⟩)
  | .struct name fs =>
    rw [DVal.Clean] at h
    rw [DVal.at, DVal.at]
    exact pad_two (pad_clean h.1) (pad_atF fs d true h.2)
  | .list vs =>
    rw [DVal.Clean] at h
    rw [DVal.at, DVal.at]
    exact pad_two ⟨rfl, rfl⟩ (pad_atV vs d true h)
theorem pad_atF (fs : DFields) (d : Nat) (first : Bool) (h : fs.Clean) :
    pad false (fs.at plain d first) = fs.at plain (d + 1) first ∧ lastNL false (fs.at plain d first) = false := by
  match fs with
  | .nil =>
    cases first
    · rw [DFields.at, DFields.at]; exact pad_line _ (by simp) ⟨rfl, rfl⟩
    · rw [DFields.at, DFields.at]; exact ⟨rfl, rfl⟩
  | .cons name v fs =>
    rw [DFields.Clean] at h
    rw [DFields.at, DFields.at]
    refine pad_two (pad_two (by cases first <;> exact ⟨rfl, rfl⟩) (pad_line _ (by simp) ?_)) (pad_atF fs d false h.2.2)
    exact pad_two (pad_two (pad_two (pad_clean h.1) ⟨rfl, rfl⟩) (pad_at v _ h.2.1)) ⟨rfl, rfl⟩
theorem pad_atV (vs : DVals) (d : Nat) (first : Bool) (h : vs.Clean) :
    pad false (vs.at plain d first) = vs.at plain (d + 1) first ∧ lastNL false (vs.at plain d first) = false := by
  match vs with
  | .nil =>
    cases first
    · rw [DVals.at, DVals.at]; exact pad_line _ (by simp) ⟨rfl, rfl⟩
    · rw [DVals.at, DVals.at]; exact ⟨rfl, rfl⟩
  | .cons v vs =>
    rw [DVals.Clean] at h
    rw [DVals.at, DVals.at]
    exact pad_two (pad_line _ (by simp) (pad_two (pad_at v _ h.1) ⟨rfl, rfl⟩)) (pad_atV vs d false h.2)
end

/-- One entry of the builders. -/
theorem pad_entry {x x' : Str} (h : pad false x = x' ∧ lastNL false x = false) : '\n' :: pad true (x ++ [',', '\n']) = newLine 1 ++ (x' ++ [',']) ++ ['\n'] := by
  rw [pad_true (by simp), pad_append, h.1, h.2]
  change '\n' :: ([' ', ' ', ' ', ' '] ++ (x' ++ [',', '\n'])) = '\n' :: ([' ', ' ', ' ', ' '] ++ (x' ++ [','])) ++ ['\n']
  simp

mutual
theorem pretty_at (v : DVal) (h : v.Clean) : v.pretty plain = v.at plain 0 := by
  match v with
  | .str s => rw [DVal.pretty, DVal.at]
  | .tuple name v =>
    rw [DVal.Clean] at h
    rw [DVal.pretty, DVal.at, pretty_at v h.2]
    have := pad_entry (pad_at plain v 0 h.2)
    rw [show name ++ ['(', '\n'] = name ++ ['('] ++ ['\n'] from by simp, List.append_assoc (name ++ ['(']), List.singleton_append, this]
    simp [newLine]
  | .struct name fs =>
    rw [DVal.Clean] at h
    rw [DVal.pretty, DVal.at, (pretty_atF fs h.2).1]
  | .list vs =>
    rw [DVal.Clean] at h
    rw [DVal.pretty, DVal.at, List.append_assoc, (pretty_atV vs h).1]
theorem pretty_atF (fs : DFields) (h : fs.Clean) : fs.pretty plain true = fs.at plain 0 true ∧ '\n' :: fs.pretty plain false = fs.at plain 0 false := by
  match fs with
  | .nil => exact ⟨by rw [DFields.pretty, DFields.at], by rw [DFields.pretty, DFields.at]; rfl⟩
  | .cons name v fs =>
    rw [DFields.Clean] at h
    have h1 := pad_entry (pad_two (pad_two (pad_clean h.1) (x := name) (y := [':', ' ']) (y' := [':', ' ']) ⟨rfl, rfl⟩) (pad_at plain v 0 h.2.1))
    have h2 := (pretty_atF fs h.2.2).2
    constructor
    · rw [DFields.pretty, DFields.at, pretty_at v h.2.1, ← h2, if_pos rfl, if_pos rfl, show ([' ', '{', '\n'] : Str) = [' ', '{'] ++ ['\n'] from rfl,
        List.append_assoc [' ', '{'], List.singleton_append, h1]
      simp
    · rw [DFields.pretty, DFields.at, pretty_at v h.2.1, ← h2, if_neg (by simp), if_neg (by simp), List.nil_append, List.nil_append, ← List.cons_append, h1]
      simp
theorem pretty_atV (vs : DVals) (h : vs.Clean) :
    vs.pretty plain true ++ [']'] = vs.at plain 0 true ∧ '\n' :: vs.pretty plain false ++ [']'] = vs.at plain 0 false := by
  match vs with
  | .nil => exact ⟨by rw [DVals.pretty, DVals.at]; rfl, by rw [DVals.pretty, DVals.at]; rfl⟩
  | .cons v vs =>
    rw [DVals.Clean] at h
    have h1 := pad_entry (pad_at plain v 0 h.1)
    have h2 := (pretty_atV vs h.2).2
    constructor
    · rw [DVals.pretty, DVals.at, pretty_at v h.1, ← h2, if_pos rfl, List.singleton_append, h1]
      simp
    · rw [DVals.pretty, DVals.at, pretty_at v h.1, ← h2, if_neg (by simp), List.nil_append, ← List.cons_append, h1]
      simp
end

/-! ### The values of the crate -/

theorem vals_at (d : Nat) (l : List DVal) (first : Bool) : (DVals.ofList l).at plain d first =
    (l.map fun v => newLine (d + 1) ++ v.at plain (d + 1) ++ [',']).flatten ++ (if first = true ∧ l = [] then [] else newLine d) ++ [']'] := by
  induction l generalizing first with
  | nil => cases first <;> simp [DVals.ofList, DVals.at]
  | cons v vs ih =>
    rw [DVals.ofList, DVals.at, ih]
    simp

theorem list_at (d : Nat) (l : List DVal) : (DVal.list (.ofList l)).at plain d = vertical d (l.map (DVal.at plain (d + 1))) := by
  rw [DVal.at, vals_at]
  cases l with
  | nil => rfl
  | cons a l =>
    rw [show (a :: l).map (DVal.at plain (d + 1)) = a.at plain (d + 1) :: l.map (DVal.at plain (d + 1)) from rfl, vertical_eq, if_neg (by simp),
      ← List.map_cons (f := DVal.at plain (d + 1)), List.map_map]
    simp [Function.comp_def]

theorem term_at (d : Nat) (t : Term) : t.debugVal.at plain d = prettyTerm plain d t := by
  cases t <;> simp [Term.debugVal, DVal.at, prettyTerm, strDebug_eq]

theorem expression_at (d : Nat) (e : Expression) : e.debugVal.at plain d = prettyExpression plain d e := by
  rw [Expression.debugVal, DVal.at, DFields.at, DFields.at, list_at, List.map_map,
    show DVal.at plain (d + 1 + 1) ∘ Term.debugVal = prettyTerm plain (d + 2) from funext (term_at plain (d + 2))]
  simp [prettyExpression]

theorem production_at (d : Nat) (p : Production) : p.debugVal.at plain d = prettyProduction plain d p := by
  rw [Production.debugVal, DVal.at, DFields.at, DFields.at, DFields.at, list_at, List.map_map,
    show DVal.at plain (d + 1 + 1) ∘ Expression.debugVal = prettyExpression plain (d + 2) from funext (expression_at plain (d + 2)), term_at]
  simp [prettyProduction]

theorem grammar_at (d : Nat) (g : Grammar) : g.debugVal.at plain d = prettyDebug plain d g := by
  rw [Grammar.debugVal, DVal.at, DFields.at, DFields.at, list_at, List.map_map,
    show DVal.at plain (d + 1 + 1) ∘ Production.debugVal = prettyProduction plain (d + 2) from funext (production_at plain (d + 2))]
  simp [prettyDebug]

theorem treeVal_at (d : Nat) (lhs : Term) (rhs : List ParseTreeNode) (h : ∀ n ∈ rhs, n.debugVal.at plain (d + 2) = prettyNode plain (d + 2) n) :
    (treeVal lhs (nodesVal rhs)).at plain d = prettyTreeOf plain d lhs (prettyNodes plain (d + 2) rhs) := by
  rw [treeVal, DVal.at, DFields.at, DFields.at, DFields.at, nodesVal_eq, list_at, List.map_map, term_at, prettyNodes_map,
    List.map_congr_left (f := DVal.at plain (d + 1 + 1) ∘ ParseTreeNode.debugVal) (g := prettyNode plain (d + 2)) (fun n hn => h n hn)]
  simp [prettyTreeOf]

mutual
theorem node_at (d : Nat) (n : ParseTreeNode) : n.debugVal.at plain d = prettyNode plain d n := by
  match n with
  | .terminal s => simp [ParseTreeNode.debugVal, DVal.at, prettyNode, strDebug_eq]
  | .nonterminal lhs rhs =>
    rw [ParseTreeNode.debugVal, DVal.at, prettyNode, treeVal_at plain (d + 1) lhs rhs (nodes_at (d + 3) rhs)]
    simp
theorem nodes_at (d : Nat) (l : List ParseTreeNode) : ∀ n ∈ l, n.debugVal.at plain d = prettyNode plain d n := by
  match l with
  | [] => simp
  | a :: l =>
    intro n hn
    rcases List.mem_cons.mp hn with h | h
    · rw [h]; exact node_at d a
    · exact nodes_at d l n h
end

theorem ofList_clean {l : List DVal} (h : ∀ v ∈ l, v.Clean) : (DVals.ofList l).Clean := by
  induction l with
  | nil => simp [DVals.ofList, DVals.Clean]
  | cons v l ih =>
    rw [DVals.ofList, DVals.Clean]
    exact ⟨h v List.mem_cons_self, ih fun w hw => h w (List.mem_cons_of_mem _ hw)⟩

theorem term_clean (t : Term) : t.debugVal.Clean := by
  cases t <;> simp [Term.debugVal, DVal.Clean]

theorem expression_clean (e : Expression) : e.debugVal.Clean := by
  simp only [Expression.debugVal, DVal.Clean, DFields.Clean]
  exact ⟨by decide, by decide, ofList_clean fun v hv => by obtain ⟨t, _, rfl⟩ := List.mem_map.mp hv; exact term_clean t, trivial⟩

theorem production_clean (p : Production) : p.debugVal.Clean := by
  simp only [Production.debugVal, DVal.Clean, DFields.Clean]
  exact ⟨by decide, by decide, term_clean _, by decide, ofList_clean fun v hv => by obtain ⟨t, _, rfl⟩ := List.mem_map.mp hv; exact expression_clean t, trivial⟩

theorem grammar_clean (g : Grammar) : g.debugVal.Clean := by
  simp only [Grammar.debugVal, DVal.Clean, DFields.Clean]
  exact ⟨by decide, by decide, ofList_clean fun v hv => by obtain ⟨t, _, rfl⟩ := List.mem_map.mp hv; exact production_clean t, trivial⟩

theorem treeVal_clean (lhs : Term) {rhs : DVals} (h : rhs.Clean) : (treeVal lhs rhs).Clean := by
  simp only [treeVal, DVal.Clean, DFields.Clean]
  exact ⟨by decide, by decide, term_clean _, by decide, h, trivial⟩

mutual
theorem node_clean (n : ParseTreeNode) : n.debugVal.Clean := by
  match n with
  | .terminal s => simp [ParseTreeNode.debugVal, DVal.Clean]
  | .nonterminal lhs rhs =>
    rw [ParseTreeNode.debugVal, DVal.Clean]
    exact ⟨by decide, treeVal_clean lhs (nodes_clean rhs)⟩
theorem nodes_clean (l : List ParseTreeNode) : (nodesVal l).Clean := by
  match l with
  | [] => simp [nodesVal, DVals.Clean]
  | a :: l =>
    rw [nodesVal, DVals.Clean]
    exact ⟨node_clean a, nodes_clean l⟩
end

end

end Bnf
