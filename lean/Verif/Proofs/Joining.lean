import Verif.Spec.Joining
import Verif.Proofs.CustomFormat
import Verif.Proofs.Normalize
import Verif.Spec.Ebnf

/-! # Grammar texts one after the other -/

set_option autoImplicit false

namespace Bnf
open Spec

variable {F : Format}

/-- `x` can follow what ends a production, and leads to `y`. -/
structure Joins (F : Format) (x y : Str) : Prop where
  layout : Layout x y
  comment : ∀ u, OneLine u → Layout (';' :: (u ++ x)) y
  name : F.nonterminalDelimiter = none → x = [] ∨ ∃ c cs, x = c :: cs ∧ NameStop c

theorem layout_more {s r} (h : Layout s r) (x : Str) (hr : r ≠ []) : Layout (s ++ x) (r ++ x) := by
  induction h with
  | nil => exact .nil
  | space hc _ ih => exact .space hc (ih hr)
  | comment hu hc _ ih =>
    have := Layout.comment hu hc (ih hr)
    simpa using this
  | lastComment _ => exact absurd rfl hr

theorem layout_last {s x y} (h : Layout s []) (hj : Joins F x y) : Layout (s ++ x) y := by
  generalize hr : ([] : Str) = r at h
  induction h with
  | nil => subst hr; exact hj.layout
  | space hc _ ih => exact .space hc (ih hr)
  | comment hu hc _ ih =>
    have := Layout.comment hu hc (ih hr)
    simpa using this
  | lastComment hu => exact hj.comment _ hu

theorem name_more {u s r} (h : Name F u s r) (x : Str)
    (hx : r = [] → F.nonterminalDelimiter = none → x = [] ∨ ∃ c cs, x = c :: cs ∧ NameStop c) : Name F u (s ++ x) (r ++ x) := by
  unfold Name at h ⊢
  cases hd : F.nonterminalDelimiter with
  | some ab =>
    rw [hd] at h
    obtain ⟨rfl, hb⟩ := h
    exact ⟨by simp, hb⟩
  | none =>
    rw [hd] at h
    obtain ⟨rfl, h1, h2, h3⟩ := h
    refine ⟨by simp, h1, h2, ?_⟩
    rcases h3 with rfl | ⟨c, cs, rfl, hc⟩
    · simpa using hx rfl hd
    · exact .inr ⟨c, cs ++ x, rfl, hc⟩

theorem quoted_more {u s r} (h : Quoted u s r) (x : Str) : Quoted u (s ++ x) (r ++ x) := by
  obtain ⟨q, hq, hu, rfl⟩ := h
  exact ⟨q, hq, hu, by simp⟩

theorem layout_ne {s r} (h : Layout s r) (hr : r ≠ []) : s ≠ [] := by
  rintro rfl
  obtain ⟨u, hu⟩ := h.suffix
  simp at hu
  exact hr hu.2

theorem syn_ne {i s r} (h : Syn F i s r) : s ≠ [] := by
  rintro rfl
  have := h.suffix.2
  simp at this

theorem syn_more {i s r} (h : Syn F i s r) (x : Str) (hr : r ≠ []) : Syn F i (s ++ x) (r ++ x) := by
  induction h with
  | terminal hq hl => exact .terminal (quoted_more hq x) (layout_more hl x hr)
  | nonterminal hn hl => exact .nonterminal (name_more hn x fun h => absurd h (layout_ne hl hr)) (layout_more hl x hr)
  | group _ hl ih => exact .group (ih (by simp)) (layout_more hl x hr)
  | optional _ hl ih => exact .optional (ih (by simp)) (layout_more hl x hr)
  | one _ ih => exact .one (ih hr)
  | more _ h2 ih1 ih2 => exact .more (ih1 (syn_ne h2)) (ih2 hr)
  | lastAlt _ ih => exact .lastAlt (ih hr)
  | nextAlt _ hl h2 ih1 ih2 => exact .nextAlt (ih1 (by simp)) (layout_more hl x (syn_ne h2)) (ih2 hr)

theorem syn_last {i s x y} (h : Syn F i s []) (hj : Joins F x y) : Syn F i (s ++ x) y := by
  generalize hr : ([] : Str) = r at h
  induction h with
  | terminal hq hl => subst hr; exact .terminal (quoted_more hq x) (layout_last hl hj)
  | nonterminal hn hl => subst hr; exact .nonterminal (name_more hn x fun _ => hj.name) (layout_last hl hj)
  | group h hl _ => subst hr; exact .group (syn_more h x (by simp)) (layout_last hl hj)
  | optional h hl _ => subst hr; exact .optional (syn_more h x (by simp)) (layout_last hl hj)
  | one _ ih => exact .one (ih hr)
  | more h1 h2 _ ih2 => exact .more (syn_more h1 x (syn_ne h2)) (ih2 hr)
  | lastAlt _ ih => exact .lastAlt (ih hr)
  | nextAlt h1 hl h2 _ ih2 => exact .nextAlt (syn_more h1 x (by simp)) (layout_more hl x (syn_ne h2)) (ih2 hr)

theorem lhs_more (hF : WellChosen F) {u s r} (h : Lhs F u s r) (x : Str) (hr : r ≠ []) : Lhs F u (s ++ x) (r ++ x) := by
  obtain ⟨s1, s2, s3, h1, h2, h3, h4⟩ := h
  obtain ⟨y, ys, hy, _⟩ := hF.separator
  have hne : F.productionSeparator ++ s2 ≠ [] := by rw [hy]; simp
  refine ⟨s1 ++ x, s2 ++ x, s3 ++ x, name_more h1 x fun h => absurd h (layout_ne h2 hne), ?_, ?_, layout_more h4 x hr⟩
  · simpa using layout_more h2 x hne
  · rcases h3 with rfl | rfl
    · exact .inl rfl
    · exact .inr rfl

theorem prod_more (hF : WellChosen F) {p s r} (h : Prod F p s r) (x : Str) (hr : r ≠ []) : Prod F p (s ++ x) (r ++ x) := by
  obtain ⟨s1, h1, h2⟩ := h
  exact ⟨s1 ++ x, lhs_more hF h1 x (syn_ne h2), syn_more h2 x hr⟩

theorem prod_last (hF : WellChosen F) {p s x y} (h : Prod F p s []) (hj : Joins F x y) : Prod F p (s ++ x) y := by
  obtain ⟨s1, h1, h2⟩ := h
  exact ⟨s1 ++ x, lhs_more hF h1 x (syn_ne h2), syn_last h2 hj⟩

theorem prod_ne {p s r} (h : Prod F p s r) : s ≠ [] := by
  obtain ⟨s1, h1, _⟩ := h
  rintro rfl
  have := h1.suffix.2
  simp at this

theorem prods_ne {g s r} (h : Prods F g s r) : s ≠ [] := by
  cases h with
  | one h => exact prod_ne h
  | more h _ => exact prod_ne h

theorem prods_join (hF : WellChosen F) {g s x y} (h : Prods F g s []) (hj : Joins F x y) {g'}
    (h' : Prods F g' y []) : Prods F (g ++ g') (s ++ x) [] := by
  generalize hr : ([] : Str) = r at h
  induction h with
  | one h => subst hr; exact .more (prod_last hF h hj) h'
  | more h1 h2 ih => subst hr; exact .more (prod_more hF h1 x (prods_ne h2)) (ih rfl)

theorem prods_end (hF : WellChosen F) {g s x} (h : Prods F g s []) (hj : Joins F x []) : Prods F g (s ++ x) [] := by
  generalize hr : ([] : Str) = r at h
  induction h with
  | one h => subst hr; exact .one (prod_last hF h hj)
  | more h1 h2 ih => subst hr; exact .more (prod_more hF h1 x (prods_ne h2)) (ih rfl)

theorem text_join (hF : WellChosen F) {g g' s x y} (h : GrammarText F g s) (hj : Joins F x y)
    (h' : Prods F g' y []) : GrammarText F (g ++ g') (s ++ x) := by
  obtain ⟨s1, h1, h2⟩ := h
  exact ⟨s1 ++ x, layout_more h1 x (prods_ne h2), prods_join hF h2 hj h'⟩

theorem text_end (hF : WellChosen F) {g s x} (h : GrammarText F g s) (hj : Joins F x []) : GrammarText F g (s ++ x) := by
  obtain ⟨s1, h1, h2⟩ := h
  exact ⟨s1 ++ x, layout_more h1 x (prods_ne h2), prods_end hF h2 hj⟩

/-! ### What can be put at the end of a line -/

theorem newline_white {c : Char} (h : IsNewline c) : isWhitespace c = true := by
  rcases h with rfl | rfl <;> decide

theorem lineEnd_oneLine {t} (h : LineEnd F t) : OneLine t := by
  induction h with
  | nil => intro d hd; cases hd
  | space _ hn _ ih =>
    intro d hd
    rcases List.mem_cons.mp hd with rfl | hd
    · exact hn
    · exact ih d hd
  | semicolon _ h =>
    intro d hd
    rcases List.mem_cons.mp hd with rfl | hd
    · rintro (h | h) <;> exact absurd h (by decide)
    · exact h d hd
  | spaced _ hn h =>
    intro d hd
    rcases List.mem_cons.mp hd with rfl | hd
    · exact hn
    rcases List.mem_cons.mp hd with rfl | hd
    · rintro (h | h) <;> exact absurd h (by decide)
    · exact h d hd

theorem lineEnd_layout {t} (h : LineEnd F t) : Layout t [] ∧ ∀ {c s r}, IsNewline c → Layout s r → Layout (t ++ c :: s) r := by
  induction h with
  | nil => exact ⟨.nil, fun hc hl => .space (newline_white hc) hl⟩
  | space hw _ _ ih => exact ⟨.space hw ih.1, fun hc hl => .space hw (ih.2 hc hl)⟩
  | semicolon _ h => exact ⟨.lastComment h, fun hc hl => .comment h hc hl⟩
  | spaced hw _ h => exact ⟨.space hw (.lastComment h), fun hc hl => .space hw (.comment h hc hl)⟩

theorem lineEnd_name {t} (h : LineEnd F t) (hd : F.nonterminalDelimiter = none) :
    t = [] ∨ ∃ c cs, t = c :: cs ∧ NameStop c := by
  cases h with
  | nil => exact .inl rfl
  | space hw _ _ => exact .inr ⟨_, _, rfl, .inl hw⟩
  | semicolon h _ => rw [hd] at h; cases h
  | spaced hw _ _ => exact .inr ⟨_, _, rfl, .inl hw⟩

theorem oneLine_append {u t} (hu : OneLine u) (ht : OneLine t) : OneLine (u ++ t) := by
  intro d hd
  rcases List.mem_append.mp hd with hd | hd
  · exact hu d hd
  · exact ht d hd

theorem joins_end {t} (h : LineEnd F t) : Joins F t [] where
  layout := (lineEnd_layout h).1
  comment := fun _ hu => .lastComment (oneLine_append hu (lineEnd_oneLine h))
  name := lineEnd_name h

theorem joins_line {t c s y} (h : LineEnd F t) (hc : IsNewline c) (hl : Layout s y) : Joins F (t ++ c :: s) y where
  layout := (lineEnd_layout h).2 hc hl
  comment := fun u hu => by
    have := Layout.comment (oneLine_append hu (lineEnd_oneLine h)) hc hl
    simpa using this
  name := fun hd => by
    rcases lineEnd_name h hd with rfl | ⟨d, ds, rfl, hs⟩
    · exact .inr ⟨c, s, rfl, .inl (newline_white hc)⟩
    · exact .inr ⟨d, _, rfl, hs⟩

theorem text_lines (hF : WellChosen F) {g g' s t c s'} (h : GrammarText F g s) (ht : LineEnd F t) (hc : IsNewline c)
    (h' : GrammarText F g' s') : GrammarText F (g ++ g') (s ++ t ++ c :: s') := by
  obtain ⟨y, h1, h2⟩ := h'
  rw [List.append_assoc]
  exact text_join hF h (joins_line ht hc h1) h2

theorem text_trailing (hF : WellChosen F) {g s t} (h : GrammarText F g s) (ht : LineEnd F t) : GrammarText F g (s ++ t) :=
  text_end hF h (joins_end ht)

/-! ### Texts without brackets -/

/-- Without groups and optionals. -/
def FlatItem : Item → Prop
  | .term t => ∃ u, t = .simple u
  | .terms ts => ∃ us : List Term, ts = us.map .simple
  | .alts as => ∃ es : List Expression, as = es.map toParsedExpr

theorem syn_flat {i s r} (h : Syn F i s r) (h1 : '(' ∉ s) (h2 : '[' ∉ s) : FlatItem i := by
  induction h with
  | terminal _ _ => exact ⟨_, rfl⟩
  | nonterminal _ _ => exact ⟨_, rfl⟩
  | group _ _ _ => exact absurd (List.mem_cons_self ..) h1
  | optional _ _ _ => exact absurd (List.mem_cons_self ..) h2
  | one _ ih =>
    obtain ⟨u, rfl⟩ := ih h1 h2
    exact ⟨[u], rfl⟩
  | more ha _ ih1 ih2 =>
    obtain ⟨u, rfl⟩ := ih1 h1 h2
    obtain ⟨⟨v, rfl⟩, _⟩ := ha.suffix
    obtain ⟨us, rfl⟩ := ih2 (fun h => h1 (List.mem_append_right _ h)) (fun h => h2 (List.mem_append_right _ h))
    exact ⟨u :: us, rfl⟩
  | lastAlt _ ih =>
    obtain ⟨us, rfl⟩ := ih h1 h2
    exact ⟨[⟨us⟩], rfl⟩
  | nextAlt ha hl _ ih1 ih2 =>
    obtain ⟨us, rfl⟩ := ih1 h1 h2
    obtain ⟨⟨v, rfl⟩, _⟩ := ha.suffix
    obtain ⟨w, rfl⟩ := hl.suffix
    obtain ⟨es, rfl⟩ := ih2 (fun h => h1 (by simp [h])) (fun h => h2 (by simp [h]))
    exact ⟨⟨us⟩ :: es, rfl⟩

theorem prod_flat {p s r} (h : Prod F p s r) (h1 : '(' ∉ s) (h2 : '[' ∉ s) : ∃ es, p = toParsedProd p.lhs es := by
  obtain ⟨s1, ha, hb⟩ := h
  obtain ⟨⟨v, rfl⟩, _⟩ := ha.suffix
  obtain ⟨es, he⟩ := syn_flat hb (fun h => h1 (List.mem_append_right _ h)) (fun h => h2 (List.mem_append_right _ h))
  refine ⟨es, ?_⟩
  unfold toParsedProd
  rw [← he]

theorem prods_flat {g s r} (h : Prods F g s r) (h1 : '(' ∉ s) (h2 : '[' ∉ s) :
    ∃ ps, g = toParsed ps ∧ ∀ p ∈ ps, ∃ u, p.lhs = .nonterminal u := by
  induction h with
  | one h =>
    obtain ⟨es, he⟩ := prod_flat h h1 h2
    exact ⟨[⟨.nonterminal _, es⟩], by rw [he]; rfl, by simp⟩
  | more h _ ih =>
    obtain ⟨es, he⟩ := prod_flat h h1 h2
    obtain ⟨s0, ha, hb⟩ := h
    obtain ⟨⟨v, rfl⟩, _⟩ := ha.suffix
    obtain ⟨⟨w, rfl⟩, _⟩ := hb.suffix
    obtain ⟨ps, rfl, hp⟩ := ih (fun h => h1 (by simp [h])) (fun h => h2 (by simp [h]))
    refine ⟨⟨.nonterminal _, es⟩ :: ps, by rw [he]; rfl, ?_⟩
    intro p hm
    rcases List.mem_cons.mp hm with rfl | hm
    · exact ⟨_, rfl⟩
    · exact hp p hm

theorem text_flat {g s} (h : GrammarText F g s) (h1 : '(' ∉ s) (h2 : '[' ∉ s) :
    ∃ ps, g = toParsed ps ∧ ∀ p ∈ ps, ∃ u, p.lhs = .nonterminal u := by
  obtain ⟨s1, ha, hb⟩ := h
  obtain ⟨v, rfl⟩ := ha.suffix
  exact prods_flat hb (fun h => h1 (List.mem_append_right _ h)) (fun h => h2 (List.mem_append_right _ h))

theorem toParsed_append (a b : List Production) : toParsed (a ++ b) = toParsed a ++ toParsed b := by
  induction a with
  | nil => rfl
  | cons p a ih => simp only [List.cons_append, toParsed, ih]

/-! ### What joined texts mean -/

theorem means_left {pg pg' i w} (h : Means pg i w) : Means (pg ++ pg') i w := by
  induction h with
  | terminal => exact .terminal
  | nonterminal hp _ ih => exact .nonterminal (List.mem_append_left _ hp) ih
  | group _ ih => exact .group ih
  | present _ ih => exact .present ih
  | absent => exact .absent
  | nil => exact .nil
  | cons _ _ ih1 ih2 => exact .cons ih1 ih2
  | choose he _ ih => exact .choose he ih

theorem means_of_join {pg pg' i w} (hd : ∀ n, UsedIn n pg → ¬ DeclaredIn n pg') (h : Means (pg ++ pg') i w) :
    (∀ n, Within (.term (.simple (.nonterminal n))) i → ¬ DeclaredIn n pg') → Means pg i w := by
  induction h with
  | terminal => exact fun _ => .terminal
  | @nonterminal p w hp _ ih =>
    intro hi
    rcases List.mem_append.mp hp with hp | hp
    · exact .nonterminal hp (ih fun n hn => hd n ⟨p, hp, hn⟩)
    · exact absurd ⟨p, hp, rfl⟩ (hi p.lhs .refl)
  | group _ ih => exact fun hi => .group (ih fun n hn => hi n (.group hn))
  | present _ ih => exact fun hi => .present (ih fun n hn => hi n (.optional hn))
  | absent => exact fun _ => .absent
  | nil => exact fun _ => .nil
  | cons _ _ ih1 ih2 =>
    exact fun hi => .cons (ih1 fun n hn => hi n (.terms (List.mem_cons_self ..) hn)) (ih2 fun n hn => hi n (by
      cases hn with
      | terms hm hw => exact .terms (List.mem_cons_of_mem _ hm) hw))
  | choose he _ ih => exact fun hi => .choose he (ih fun n hn => hi n (.alts he hn))

end Bnf
