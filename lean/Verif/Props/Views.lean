import Verif.Proofs.Views
import Verif.Spec.Views
import Verif.Props.Parsing

/-! # Properties C89 and C90: debug output of input ranges, order of terms and expressions -/

set_option autoImplicit false

namespace Bnf.Props
open Bnf Spec

/-! ## C89 -/

/-- C89: in every state of the parser, the debug output of every range shows the input, cut at the start and the end of the range. -/
theorem C89_debug {g S input it} (ho : Opened g S input it) {ems st}
    (hr : Rounds it.parser.parseGrammar it.st ems st) {k : Nat} {tr : Traversal} (hk : st.tree.arena[k]? = some tr) :
    ∃ u v w, input = u ++ v ++ w ∧ byteLen u = tr.range.start ∧ byteLen v = tr.range.len ∧
      tr.range.debug = "InputRange(\"".toList ++ u ++ "|".toList ++ v ++ "|".toList ++ w ++ "\")".toList := by
  obtain ⟨u, v, w, h1, h2, h3⟩ := C12_start_boundaries ho hr hk
  have hi : tr.range.input = input := by
    rw [ho.inv.1.pg] at hr
    obtain ⟨hi, _⟩ := hr.inv (PGOk.newUnchecked g) ho.inv.1.inv
    exact (hi.s.entries k tr hk).input_eq
  refine ⟨u, v, w, h1, h2, h3, ?_⟩
  have e1 : getTo (u ++ v ++ w) (byteLen u) = some u := by rw [List.append_assoc]; exact getTo_append u _
  have e2 : getFrom (u ++ v ++ w) (byteLen u) = some (v ++ w) := by rw [List.append_assoc]; exact getFrom_append_left u _
  have e3 : getFrom (u ++ v ++ w) (byteLen u + byteLen v) = some w := getFrom_add e2
  simp only [InputRange.debug, hi, h1, ← h2, ← h3, e1, e2, e3, Option.bind_some, getTo_append, Option.getD_some]
  rfl

/-- C89: the same for ranges made by `new`, `advance_by` and `after` with steps that stay on character boundaries, whatever the text. -/
theorem C89_debug_range (u v w : Str) :
    InputRange.debug ⟨u ++ v ++ w, byteLen u, byteLen v⟩ = "InputRange(\"".toList ++ u ++ "|".toList ++ v ++ "|".toList ++ w ++ "\")".toList := by
  have e1 : getTo (u ++ v ++ w) (byteLen u) = some u := by rw [List.append_assoc]; exact getTo_append u _
  have e2 : getFrom (u ++ v ++ w) (byteLen u) = some (v ++ w) := by rw [List.append_assoc]; exact getFrom_append_left u _
  have e3 : getFrom (u ++ v ++ w) (byteLen u + byteLen v) = some w := getFrom_add e2
  simp only [InputRange.debug, e1, e2, e3, Option.bind_some, getTo_append, Option.getD_some]
  rfl

/-- The unit test of the crate, `src/earley/input_range.rs` 87-96. -/
example : (((InputRange.new ['G', 'A', 'T', 'T', 'A', 'C', 'A']).advanceBy 3).bind fun r => r.after.advanceBy 2).map InputRange.debug =
    some "InputRange(\"GAT|TA|CA\")".toList := by decide

/-- A range that does not start at a character boundary would lose text; C89_debug says that there are none. -/
example : InputRange.debug ⟨['ä', 'b'], 1, 0⟩ = "InputRange(\"||\")".toList := by decide

/-! ## C90 -/

theorem lexLt_iff {α : Type} {cmp : α → α → Ordering} (hc : LinearCmp cmp) {lt : α → α → Prop} (hl : ∀ a b, cmp a b = .lt ↔ lt a b) :
    ∀ l m : List α, cmpList cmp l m = .lt ↔ LexLt lt l m := by
  intro l m
  constructor
  · intro h
    induction l generalizing m with
    | nil =>
      cases m with
      | nil => simp [cmpList] at h
      | cons b m => exact .prefix (l := [])
    | cons a l ih =>
      cases m with
      | nil => simp [cmpList] at h
      | cons b m =>
        rw [cmpList] at h
        cases hab : cmp a b with
        | gt => rw [hab] at h; cases h
        | lt => exact .differ (u := []) ((hl a b).mp hab)
        | eq =>
          rw [hab] at h
          cases (hc.eq_iff a b).mp hab
          cases ih m h with
          | @«prefix» _ b m => exact .prefix (l := a :: l)
          | @differ u x y l m hxy => exact .differ (u := a :: u) hxy
  · intro h
    have hrefl := fun a => (hc.eq_iff a a).mpr rfl
    cases h with
    | @«prefix» _ b m =>
      have := cmpList_same hrefl l [] (b :: m)
      rw [List.append_nil] at this
      rw [this]; rfl
    | @differ u x y l m hxy => rw [cmpList_same hrefl, cmpList, (hl x y).mpr hxy]

theorem text_lt_iff (s t : Str) : cmpString s t = .lt ↔ TextLt s t := by
  rw [cmpString_eq]
  refine lexLt_iff cmpChar_linear (fun a b => ?_) s t
  unfold cmpChar
  split_ifs <;> simp <;> omega

/-- C90: the order of terms: comparing UTF-8 bytes is comparing code points, and terminals come first. -/
theorem C90_term (a b : Term) : cmpTerm a b = .lt ↔ TermLt a b := by
  constructor
  · intro h
    cases a <;> cases b <;> simp only [cmpTerm, reduceCtorEq] at h
    · exact .terminal ((text_lt_iff _ _).mp h)
    · exact .kind
    · exact .nonterminal ((text_lt_iff _ _).mp h)
  · intro h
    cases h with
    | kind => rfl
    | terminal h => exact (text_lt_iff _ _).mpr h
    | nonterminal h => exact (text_lt_iff _ _).mpr h

/-- C90: the order of expressions. -/
theorem C90_expression (a b : Expression) : cmpExpression a b = .lt ↔ ExpressionLt a b :=
  lexLt_iff cmpTerm_linear C90_term _ _

/-- C90: both are linear orders that agree with equality: exactly one of `<`, `=`, `>` holds, and `<` is transitive. -/
theorem C90_linear :
    ((∀ a b, cmpTerm a b = .eq ↔ a = b) ∧ (∀ a b, cmpTerm a b = .lt ↔ cmpTerm b a = .gt) ∧
      ∀ a b c, cmpTerm a b = .lt → cmpTerm b c = .lt → cmpTerm a c = .lt) ∧
    (∀ a b, cmpExpression a b = .eq ↔ a = b) ∧ (∀ a b, cmpExpression a b = .lt ↔ cmpExpression b a = .gt) ∧
      ∀ a b c, cmpExpression a b = .lt → cmpExpression b c = .lt → cmpExpression a c = .lt :=
  ⟨⟨cmpTerm_linear.eq_iff, cmpTerm_linear.swap, cmpTerm_linear.trans⟩,
   cmpExpression_linear.eq_iff, cmpExpression_linear.swap, cmpExpression_linear.trans⟩

/-- Three bytes against four: U+FFFF is before U+10000 in UTF-8 (in UTF-16 it would be after it). -/
example : cmpString [Char.ofNat 0xFFFF] [Char.ofNat 0x10000] = .lt := by decide

end Bnf.Props
