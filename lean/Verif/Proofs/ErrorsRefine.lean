import Verif.Model.Errors
import Verif.Proofs.Nom

/-!
# Forgetting the payload of parse errors

The parsers of `Model.Errors` are those of `Model.Text` once the payload of errors is dropped.
-/

set_option autoImplicit false

namespace Bnf.E
open Bnf

variable {α β γ : Type}

/-- The same results up to the payload of errors. -/
def Refines (p : P α) (q : Bnf.P α) : Prop := ∀ s, (p s).erase = q s

theorem erase_andThen (x : Res α) (f : Str → α → Res β) :
    (x.andThen f).erase = x.erase.andThen fun r v => (f r v).erase := by
  cases x <;> rfl

theorem Refines.andThen {p : P α} {q : Bnf.P α} (h : Refines p q) {f : Str → α → Res β} {g : Str → α → Bnf.Res β}
    (hf : ∀ r v, (f r v).erase = g r v) (s : Str) : ((p s).andThen f).erase = (q s).andThen g := by
  rw [erase_andThen, h s]
  congr 1
  funext r v
  exact hf r v

theorem refines_char (c : Char) : Refines (char c) (Nom.char c) := by
  intro s
  cases s with
  | nil => rfl
  | cons d r => simp only [char, Nom.char]; split <;> rfl

theorem refines_satisfy (f : Char → Bool) : Refines (satisfy f) (Nom.satisfy f) := by
  intro s
  cases s with
  | nil => rfl
  | cons d r => simp only [satisfy, Nom.satisfy]; split <;> rfl

theorem refines_tag (t : Str) : Refines (tag t) (Nom.tag t) := by
  intro s
  have := Nom.tag_no_fuel t s
  simp only [tag]
  cases h : Nom.tag t s with
  | fuel => exact absurd h this
  | err => rfl
  | ok r v => rfl

theorem refines_takeTill (f : Char → Bool) : Refines (takeTill f) (Nom.takeTill f) := fun _ => rfl

theorem refines_takeUntil (c : Char) : Refines (takeUntil c) (Nom.takeUntil c) := by
  intro s
  simp only [takeUntil, Nom.takeUntil]; split <;> rfl

theorem refines_eof : Refines eof Nom.eof := by
  intro s; cases s <;> rfl

theorem refines_ws : Refines whitespacePlusComments Bnf.whitespacePlusComments := by
  intro s
  simp only [whitespacePlusComments, Bnf.whitespacePlusComments]
  split <;> simp_all [Res.erase]

theorem Refines.delimited {a : P α} {b : P β} {c : P γ} {a' : Bnf.P α} {b' : Bnf.P β} {c' : Bnf.P γ} (ha : Refines a a')
    (hb : Refines b b') (hc : Refines c c') : Refines (delimited a b c) (Nom.delimited a' b' c') := fun s =>
  ha.andThen (fun _ _ => hb.andThen (fun _ _ => hc.andThen (fun _ _ => rfl) _) _) s

theorem Refines.preceded {a : P α} {b : P β} {a' : Bnf.P α} {b' : Bnf.P β} (ha : Refines a a')
    (hb : Refines b b') : Refines (preceded a b) (Nom.preceded a' b') := fun s => ha.andThen (fun _ _ => hb _) s

theorem Refines.terminated {a : P α} {b : P β} {a' : Bnf.P α} {b' : Bnf.P β} (ha : Refines a a')
    (hb : Refines b b') : Refines (terminated a b) (Nom.terminated a' b') := fun s =>
  ha.andThen (fun _ _ => hb.andThen (fun _ _ => rfl) _) s

theorem Refines.alt {a b : P α} {a' b' : Bnf.P α} (ha : Refines a a') (hb : Refines b b') : Refines (alt a b) (Nom.alt a' b') := by
  intro s
  simp only [E.alt, Nom.alt]
  rw [← ha s]
  cases a s with
  | err => exact hb s
  | _ => rfl

theorem Refines.not {a : P α} {a' : Bnf.P α} (ha : Refines a a') : Refines (not a) (Nom.not a') := by
  intro s
  simp only [E.not, Nom.not]
  rw [← ha s]
  cases a s <;> rfl

theorem Refines.peek {a : P α} {a' : Bnf.P α} (ha : Refines a a') : Refines (peek a) (Nom.peek a') := fun s =>
  ha.andThen (fun _ _ => rfl) s

theorem Refines.recognize {a : P α} {a' : Bnf.P α} (ha : Refines a a') : Refines (recognize a) (Nom.recognize a') := fun s =>
  ha.andThen (fun _ _ => rfl) s

theorem Refines.opt {a : P α} {a' : Bnf.P α} (ha : Refines a a') : Refines (opt a) (Nom.opt a') := by
  intro s
  simp only [E.opt, Nom.opt]
  rw [← ha s]
  cases a s <;> rfl

theorem Refines.allConsuming {a : P α} {a' : Bnf.P α} (ha : Refines a a') : Refines (allConsuming a) (Nom.allConsuming a') := fun s =>
  ha.andThen (fun r _ => by cases r <;> rfl) s

theorem Refines.manyLoop {a : P α} {a' : Bnf.P α} (ha : Refines a a') (n : Nat) (s : Str) (acc : List α) :
    (manyLoop a n s acc).erase = Nom.manyLoop a' n s acc := by
  induction n generalizing s acc with
  | zero => rfl
  | succ n ih =>
    simp only [E.manyLoop, Nom.manyLoop]
    rw [← ha s]
    cases a s with
    | fuel => rfl
    | err => rfl
    | ok r v =>
      change Res.erase (if byteLen r = byteLen s then .err s .many1 else E.manyLoop a n r (acc ++ [v])) =
        if byteLen r = byteLen s then .err else Nom.manyLoop a' n r (acc ++ [v])
      by_cases hb : byteLen r = byteLen s
      · rw [if_pos hb, if_pos hb]; rfl
      · rw [if_neg hb, if_neg hb]; exact ih _ _

theorem Refines.many1 {a : P α} {a' : Bnf.P α} (ha : Refines a a') (n : Nat) : Refines (many1 n a) (Nom.many1 n a') := fun s =>
  ha.andThen (fun _ _ => ha.manyLoop _ _ _) s

theorem Refines.xtLoop {a : P α} {a' : Bnf.P α} {d : P β} {d' : Bnf.P β} (ha : Refines a a') (hd : Refines d d') (n : Nat) (s : Str)
    (acc : List α) : (xtLoop a d n s acc).erase = Nom.xtLoop a' d' n s acc := by
  induction n generalizing s acc with
  | zero => rfl
  | succ n ih =>
    simp only [E.xtLoop, Nom.xtLoop]
    rw [← ha s]
    cases a s with
    | fuel => rfl
    | err => rfl
    | ok r v =>
      simp only [Res.erase]
      rw [← hd r]
      cases d r with
      | fuel => rfl
      | err => rfl
      | ok r' v' => exact ih _ _

theorem Refines.xtList {a : P α} {a' : Bnf.P α} {d : P β} {d' : Bnf.P β} (ha : Refines a a') (hd : Refines d d') (n : Nat) :
    Refines (xtList n a d) (Nom.xtList n a' d') := fun s => ha.xtLoop hd n s []

/-! ## The parsers -/

variable (F : Format)

theorem refines_nameText : Refines (nameText F) (Bnf.nameText F) := by
  intro s
  simp only [nameText, Bnf.nameText]
  rcases F.nonterminalDelimiter with _ | ⟨a, b⟩
  · exact (refines_satisfy _).andThen (fun _ _ => refines_takeTill _ _) s
  · exact (refines_char _).delimited (refines_takeTill _) (refines_char _) s

theorem refines_nonterminal : Refines (nonterminal F) (Bnf.nonterminal F) := fun s =>
  (refines_nameText F).andThen (fun _ _ => refines_ws.andThen (fun _ _ => rfl) _) s

theorem refines_prodLhs : Refines (prodLhs F) (Bnf.prodLhs F) := fun s =>
  (refines_nonterminal F).andThen (fun _ _ => (refines_tag _).andThen (fun _ _ => (refines_char _).opt.andThen (fun _ _ =>
    refines_ws.andThen (fun _ _ => rfl) _) _) _) s

theorem refines_quotedText : Refines quotedText Bnf.quotedText :=
  ((refines_char _).delimited (refines_takeUntil _) (refines_char _)).alt
    ((refines_char _).delimited (refines_takeUntil _) (refines_char _))

theorem refines_terminal : Refines terminal Bnf.terminal := fun s =>
  refines_quotedText.andThen (fun _ _ => refines_ws.andThen (fun _ _ => rfl) _) s

theorem refines_term : Refines (term F) (Bnf.term F) := refines_terminal.alt (refines_nonterminal F)

theorem refines_expressionNext : Refines (expressionNext F) (Bnf.expressionNext F) := fun s =>
  (refines_char _).andThen (fun _ _ => refines_ws.andThen (fun _ _ => rfl) _) s

theorem refines_expression (n : Nat) : Refines (expression F n) (Bnf.expression F n) := fun s =>
  (((refines_term F).terminated (refines_tag _).not).many1 n).andThen (fun _ _ => rfl) s

theorem refines_prodRhs (n : Nat) : Refines (prodRhs F n) (Bnf.prodRhs F n) :=
  (refines_expression F n).xtList (refines_expressionNext F) n

theorem refines_productionEnd : Refines (productionEnd F) (Bnf.productionEnd F) := by
  intro s
  simp only [productionEnd, Bnf.productionEnd]
  rcases F.productionStartChar with _ | c
  · exact refines_eof.peek.recognize.alt (refines_prodLhs F).peek.recognize s
  · exact refines_eof.peek.recognize.alt (refines_ws.preceded (refines_char _)).peek.recognize s

theorem refines_production (n : Nat) : Refines (production F n) (Bnf.production F n) := fun s =>
  (refines_prodLhs F).andThen (fun _ _ => (refines_prodRhs F n).andThen (fun _ _ => (refines_productionEnd F).andThen
    (fun _ _ => rfl) _) _) s

theorem refines_plainGrammar (n : Nat) : Refines (plainGrammar F n) (Bnf.plainGrammar F n) := fun s =>
  refines_ws.andThen (fun _ _ => (refines_production F n).andThen (fun _ _ =>
    ((refines_ws.preceded (refines_production F n)).many1 n).andThen (fun _ _ => rfl) _) _) s

theorem refines_parsedNonterminal : Refines (parsedNonterminal F) (Bnf.parsedNonterminal F) := fun s =>
  (refines_nameText F).andThen (fun _ _ => refines_ws.andThen (fun _ _ => rfl) _) s

theorem refines_parsedTerminal : Refines parsedTerminal Bnf.parsedTerminal := fun s =>
  refines_quotedText.andThen (fun _ _ => refines_ws.andThen (fun _ _ => rfl) _) s

theorem refines_parsedAltsWith (n : Nat) {pt : P ParsedTerm} {pt' : Bnf.P ParsedTerm} (h : Refines pt pt') :
    Refines (parsedAltsWith F n pt) (Bnf.parsedAltsWith F n pt') :=
  ((h.terminated (refines_tag _).not).many1 n).xtList (refines_expressionNext F) n

theorem refines_parsedAnonymousGroup (n : Nat) {pt : P ParsedTerm} {pt' : Bnf.P ParsedTerm} (h : Refines pt pt') :
    Refines (parsedAnonymousGroup F n pt) (Bnf.parsedAnonymousGroup F n pt') := fun s =>
  ((refines_char _).delimited (refines_parsedAltsWith F n h) (refines_char _)).andThen
    (fun _ _ => refines_ws.andThen (fun _ _ => rfl) _) s

theorem refines_parsedOptionalGroup (n : Nat) {pt : P ParsedTerm} {pt' : Bnf.P ParsedTerm} (h : Refines pt pt') :
    Refines (parsedOptionalGroup F n pt) (Bnf.parsedOptionalGroup F n pt') := fun s =>
  ((refines_char _).delimited (refines_parsedAltsWith F n h) (refines_char _)).andThen
    (fun _ _ => refines_ws.andThen (fun _ _ => rfl) _) s

theorem refines_parsedTerm (n : Nat) : Refines (parsedTerm F n) (Bnf.parsedTerm F n) := by
  induction n with
  | zero => intro s; rfl
  | succ n ih =>
    exact refines_parsedTerminal.alt ((refines_parsedNonterminal F).alt
      ((refines_parsedAnonymousGroup F n ih).alt (refines_parsedOptionalGroup F n ih)))

theorem refines_parsedProdLhs : Refines (parsedProdLhs F) (Bnf.parsedProdLhs F) := fun s =>
  (refines_nameText F).andThen (fun _ _ => refines_ws.andThen (fun _ _ => (refines_tag _).andThen (fun _ _ =>
    (refines_char _).opt.andThen (fun _ _ => refines_ws.andThen (fun _ _ => rfl) _) _) _) _) s

theorem refines_parsedProdRhs (n : Nat) : Refines (parsedProdRhs F n) (Bnf.parsedProdRhs F n) :=
  refines_parsedAltsWith F n (refines_parsedTerm F n)

theorem refines_parsedProduction (n : Nat) : Refines (parsedProduction F n) (Bnf.parsedProduction F n) := fun s =>
  (refines_parsedProdLhs F).andThen (fun _ _ => (refines_parsedProdRhs F n).andThen (fun _ _ =>
    (refines_eof.peek.recognize.alt (refines_parsedProdLhs F).peek.recognize).andThen (fun _ _ => rfl) _) _) s

theorem refines_parsedGrammar (n : Nat) : Refines (parsedGrammar F n) (Bnf.parsedGrammar F n) := fun s =>
  refines_ws.andThen (fun _ _ => (refines_ws.preceded (refines_parsedProduction F n)).many1 n _) s

theorem refines_parsedGrammarComplete (n : Nat) : Refines (parsedGrammarComplete F n) (Bnf.parsedGrammarComplete F n) :=
  (refines_parsedGrammar F n).allConsuming

theorem refines_grammarComplete : Refines (grammarComplete F) (Bnf.grammarComplete F) := by
  intro s
  have hx : ∀ n, ((parsedGrammarComplete F n s).andThen fun s parsed =>
      match normalizeParsedGrammar parsed with
      | none => Res.fuel
      | some g => Res.ok s g).erase = (Bnf.parsedGrammarComplete F n s).andThen fun s parsed =>
      match normalizeParsedGrammar parsed with
      | none => Bnf.Res.fuel
      | some g => Bnf.Res.ok s g := fun n =>
    (refines_parsedGrammarComplete F n).andThen (fun r v => by cases normalizeParsedGrammar v <;> rfl) s
  simp only [grammarComplete, Bnf.grammarComplete, grammarCompleteFuel]
  by_cases hs : grammarHasExtendedSyntax s = true
  · rw [if_pos hs, if_pos hs]
    exact hx _
  · rw [if_neg hs, if_neg hs]
    rw [← (refines_plainGrammar F _).allConsuming s]
    cases allConsuming (plainGrammar F (s.length + 1)) s with
    | fuel => rfl
    | ok r v => rfl
    | err i k => exact hx _

theorem refines_toResult (dbg : Str → Str) {x : Res α} {y : Bnf.Res α} (h : x.erase = y) :
    (∀ v, x.toResult dbg = some (.ok v) ↔ y.toResult = some (.ok v)) ∧
    ((∃ m, x.toResult dbg = some (.error m)) ↔ y.toResult = some (.error .parseError)) := by
  subst h
  cases x <;> simp [Res.toResult, Bnf.Res.toResult, Res.erase]

end Bnf.E
