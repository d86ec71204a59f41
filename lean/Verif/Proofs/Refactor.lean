import Verif.Spec.Refactor

/-! Changes to a grammar that keep its language. -/

set_option autoImplicit false

namespace Bnf.Refactor
open Bnf Spec

/-- The texts of a list of terms. -/
inductive Spells (g : Grammar) : List Term → Str → Prop
  | nil : Spells g [] []
  | terminal {s ts w} : Spells g ts w → Spells g (.terminal s :: ts) (s ++ w)
  | nonterminal {n e v ts w} : HasAlt g (.nonterminal n) e → Spells g e.terms v → Spells g ts w → Spells g (.nonterminal n :: ts) (v ++ w)

variable {g g' : Grammar}

theorem spells_forest {ts w} : Spells g ts w ↔ ∃ ns, IsForest g ts ns ∧ yield ns = w := by
  constructor
  · intro h
    induction h with
    | nil => exact ⟨[], .nil, rfl⟩
    | terminal _ ih =>
      obtain ⟨ns, h1, rfl⟩ := ih
      exact ⟨_, .terminal h1, by simp [yield, nodeYield]⟩
    | nonterminal ha _ _ ih1 ih2 =>
      obtain ⟨ks, h1, rfl⟩ := ih1
      obtain ⟨ns, h2, rfl⟩ := ih2
      exact ⟨_, .nonterminal ha h1 h2, by simp [yield, nodeYield]⟩
  · rintro ⟨ns, h, rfl⟩
    induction h with
    | nil => exact .nil
    | terminal _ ih => exact .terminal ih
    | nonterminal ha _ _ ih1 ih2 => exact .nonterminal ha ih1 ih2

theorem derives_iff {n w} : Derives g (.nonterminal n) w ↔ ∃ e, HasAlt g (.nonterminal n) e ∧ Spells g e.terms w := by
  constructor
  · rintro ⟨t, h1, ⟨e, h2, h3⟩, h4⟩
    rw [h1] at h2
    exact ⟨e, h2, spells_forest.mpr ⟨_, h3, h4⟩⟩
  · rintro ⟨e, h1, h2⟩
    obtain ⟨ns, h3, h4⟩ := spells_forest.mp h2
    exact ⟨⟨.nonterminal n, ns⟩, rfl, ⟨e, h1, h3⟩, h4⟩

theorem derives_spells {n w} : Derives g (.nonterminal n) w ↔ Spells g [.nonterminal n] w := by
  rw [derives_iff]
  constructor
  · rintro ⟨e, h1, h2⟩
    simpa using Spells.nonterminal h1 h2 .nil
  · intro h
    cases h with
    | nonterminal h1 h2 h3 =>
      cases h3
      exact ⟨_, h1, by simpa using h2⟩

theorem Spells.append {ts ts' w w'} (h : Spells g ts w) (h' : Spells g ts' w') : Spells g (ts ++ ts') (w ++ w') := by
  induction h with
  | nil => exact h'
  | terminal _ ih => simpa using Spells.terminal ih
  | nonterminal ha h _ _ ih => simpa using Spells.nonterminal ha h ih

theorem Spells.split {ts ts' w} (h : Spells g (ts ++ ts') w) : ∃ u v, w = u ++ v ∧ Spells g ts u ∧ Spells g ts' v := by
  generalize hx : ts ++ ts' = x at h
  induction h generalizing ts with
  | nil =>
    simp only [List.append_eq_nil_iff] at hx
    obtain ⟨rfl, rfl⟩ := hx
    exact ⟨[], [], rfl, .nil, .nil⟩
  | @terminal s x w h ih =>
    cases ts with
    | nil => rw [List.nil_append] at hx; subst hx; exact ⟨[], _, rfl, .nil, .terminal h⟩
    | cons t ts =>
      simp only [List.cons_append, List.cons.injEq] at hx
      obtain ⟨rfl, hx⟩ := hx
      obtain ⟨u, v, rfl, h1, h2⟩ := ih hx
      exact ⟨s ++ u, v, by simp, .terminal h1, h2⟩
  | @nonterminal n e v x w ha h1 h2 _ ih =>
    cases ts with
    | nil => rw [List.nil_append] at hx; subst hx; exact ⟨[], _, rfl, .nil, .nonterminal ha h1 h2⟩
    | cons t ts =>
      simp only [List.cons_append, List.cons.injEq] at hx
      obtain ⟨rfl, hx⟩ := hx
      obtain ⟨u, v', rfl, h3, h4⟩ := ih hx
      exact ⟨v ++ u, v', by simp, .nonterminal ha h1 h3, h4⟩

theorem spells_of_derives (h : ∀ n e w, HasAlt g (.nonterminal n) e → Spells g' e.terms w → Spells g' [.nonterminal n] w) {ts w}
    (hs : Spells g ts w) : Spells g' ts w := by
  induction hs with
  | nil => exact .nil
  | terminal _ ih => exact .terminal ih
  | nonterminal ha _ _ ih1 ih2 => simpa using (h _ _ _ ha ih1).append ih2

theorem spells_rewrites {ts us w} (hr : Rewrites g ts us) (h : Spells g us w) : Spells g ts w := by
  induction hr generalizing w with
  | refl => exact h
  | @step pre n post e _ ha ih =>
    obtain ⟨u, x, rfl, h1, h2⟩ := h.split
    obtain ⟨u, v, rfl, h1, h3⟩ := h1.split
    refine ih ?_
    have := h1.append (Spells.nonterminal ha h3 h2)
    simpa using this

theorem inline_forward {a b pre post} (hi : Inlined g g' a b pre post) {ts w} (h : Spells g ts w) :
    Spells g' ts w ∧ ∀ p n q, ts = p ++ .nonterminal n :: q →
      ∃ e u v x, HasAlt g (.nonterminal n) e ∧ w = u ++ v ++ x ∧ Spells g' p u ∧ Spells g' e.terms v ∧ Spells g' q x := by
  induction h with
  | nil => exact ⟨.nil, fun p n q h => by simp at h⟩
  | @terminal s ts w _ ih =>
    refine ⟨.terminal ih.1, fun p n q h => ?_⟩
    cases p with
    | nil => simp at h
    | cons t p =>
      simp only [List.cons_append, List.cons.injEq] at h
      obtain ⟨rfl, h⟩ := h
      obtain ⟨e, u, v, x, h1, rfl, h2, h3, h4⟩ := ih.2 p n q h
      exact ⟨e, s ++ u, v, x, h1, by simp, .terminal h2, h3, h4⟩
  | @nonterminal n e v ts w ha _ _ ih1 ih2 =>
    have key : ∃ e', HasAlt g' (.nonterminal n) e' ∧ Spells g' e'.terms v := by
      by_cases hc : n = a ∧ e = ⟨pre ++ .nonterminal b :: post⟩
      · obtain ⟨rfl, rfl⟩ := hc
        obtain ⟨d, u, y, x, h1, rfl, h2, h3, h4⟩ := ih1.2 pre b post rfl
        exact ⟨⟨pre ++ d.terms ++ post⟩, (hi _ _).mpr (.inr ⟨rfl, d, h1, rfl⟩), (h2.append h3).append h4⟩
      · exact ⟨e, (hi _ _).mpr (.inl ⟨ha, hc⟩), ih1.1⟩
    obtain ⟨e', he, hs⟩ := key
    refine ⟨.nonterminal he hs ih2.1, fun p m q h => ?_⟩
    cases p with
    | nil =>
      simp only [List.nil_append, List.cons.injEq, Term.nonterminal.injEq] at h
      obtain ⟨rfl, rfl⟩ := h
      exact ⟨e, [], v, w, ha, rfl, .nil, ih1.1, ih2.1⟩
    | cons t p =>
      simp only [List.cons_append, List.cons.injEq] at h
      obtain ⟨rfl, h⟩ := h
      obtain ⟨e1, u, y, x, h1, rfl, h2, h3, h4⟩ := ih2.2 p m q h
      exact ⟨e1, v ++ u, y, x, h1, by simp, .nonterminal he hs h2, h3, h4⟩

theorem inline_iff {a b pre post} (hi : Inlined g g' a b pre post) (ha : HasAlt g (.nonterminal a) ⟨pre ++ .nonterminal b :: post⟩) {ts w} :
    Spells g ts w ↔ Spells g' ts w := by
  refine ⟨fun h => (inline_forward hi h).1, fun h => spells_of_derives ?_ h⟩
  intro n e w he hs
  rcases (hi n e).mp he with ⟨h, _⟩ | ⟨rfl, d, hd, rfl⟩
  · simpa using Spells.nonterminal h hs .nil
  · obtain ⟨u, x, rfl, h1, h2⟩ := Spells.split hs
    obtain ⟨u, v, rfl, h1, h3⟩ := h1.split
    have := h1.append (Spells.nonterminal hd h3 h2)
    simpa using Spells.nonterminal ha (v := u ++ (v ++ x)) this .nil

/-- At the right end of a repetition written to the right. -/
theorem right_snoc {x : Str} {item base : Expression → Prop} (hb : (∀ e, base e ↔ item e) ∨ (∀ e, base e ↔ e = ⟨[.terminal []]⟩))
    (hx : ∀ e, HasAlt g' (.nonterminal x) e ↔ base e ∨ ∃ d, item d ∧ e = ⟨d.terms ++ [.nonterminal x]⟩)
    {d : Expression} {z : Str} (hd : item d) (hz : Spells g' d.terms z) {ts w} (h : Spells g' ts w) :
    ∀ p, ts = p ++ [.nonterminal x] → Spells g' ts (w ++ z) := by
  have one : ∀ {e v}, base e → Spells g' e.terms v → Spells g' [.nonterminal x] (v ++ z) := by
    intro e v he hv
    rcases hb with hb | hb
    · have h1 : Spells g' [.nonterminal x] z := by simpa using Spells.nonterminal ((hx d).mpr (.inl ((hb d).mpr hd))) hz .nil
      simpa using Spells.nonterminal ((hx _).mpr (.inr ⟨e, (hb e).mp he, rfl⟩)) (hv.append h1) .nil
    · have h0 := (hb e).mp he
      subst h0
      have hv' : v = [] := by
        simp only at hv
        cases hv with
        | terminal h => cases h; rfl
      subst hv'
      have h1 : Spells g' [.nonterminal x] [] := by
        simpa using Spells.nonterminal ((hx _).mpr (.inl he)) (.terminal .nil) .nil
      have h2 : Spells g' (d.terms ++ [.nonterminal x]) z := by simpa using hz.append h1
      simpa using Spells.nonterminal ((hx _).mpr (.inr ⟨d, hd, rfl⟩)) h2 .nil
  induction h with
  | nil => intro p h; simp at h
  | @terminal s ts w _ ih =>
    intro p h
    cases p with
    | nil => simp at h
    | cons t p =>
      simp only [List.cons_append, List.cons.injEq] at h
      simpa using Spells.terminal (s := s) (ih p h.2)
  | @nonterminal n e v ts w ha hs hts ih1 ih2 =>
    intro p h
    cases p with
    | nil =>
      simp only [List.nil_append, List.cons.injEq, Term.nonterminal.injEq] at h
      obtain ⟨rfl, rfl⟩ := h
      cases hts
      rcases (hx e).mp ha with he | ⟨d', hd', rfl⟩
      · simpa using one he hs
      · have := ih1 d'.terms rfl
        simpa using Spells.nonterminal ha this .nil
    | cons t p =>
      simp only [List.cons_append, List.cons.injEq] at h
      simpa using Spells.nonterminal ha hs (ih2 p h.2)

/-- At the left end of a repetition written to the left. -/
theorem left_cons {x : Str} {item base : Expression → Prop} (hb : (∀ e, base e ↔ item e) ∨ (∀ e, base e ↔ e = ⟨[.terminal []]⟩))
    (hx : ∀ e, HasAlt g (.nonterminal x) e ↔ base e ∨ ∃ d, item d ∧ e = ⟨.nonterminal x :: d.terms⟩)
    {d : Expression} {z : Str} (hd : item d) (hz : Spells g d.terms z) {ts w} (h : Spells g ts w) :
    ∀ q, ts = .nonterminal x :: q → Spells g ts (z ++ w) := by
  have one : ∀ {e v}, base e → Spells g e.terms v → Spells g [.nonterminal x] (z ++ v) := by
    intro e v he hv
    rcases hb with hb | hb
    · have h1 := Spells.nonterminal ((hx d).mpr (.inl ((hb d).mpr hd))) hz hv
      have := Spells.nonterminal ((hx _).mpr (.inr ⟨e, (hb e).mp he, rfl⟩)) h1 .nil
      simpa using this
    · have h0 := (hb e).mp he
      subst h0
      have hv' : v = [] := by
        simp only at hv
        cases hv with
        | terminal h => cases h; rfl
      subst hv'
      have h1 := Spells.nonterminal ((hx _).mpr (.inl he)) (.terminal .nil) hz
      have := Spells.nonterminal ((hx _).mpr (.inr ⟨d, hd, rfl⟩)) h1 .nil
      simpa using this
  induction h with
  | nil => intro p h; simp at h
  | @terminal s ts w _ ih => intro p h; simp at h
  | @nonterminal n e v ts w ha hs hts ih1 _ =>
    intro q h
    simp only [List.cons.injEq, Term.nonterminal.injEq] at h
    obtain ⟨rfl, rfl⟩ := h
    rcases (hx e).mp ha with he | ⟨d', hd', rfl⟩
    · simpa using (one he hs).append hts
    · have := ih1 d'.terms rfl
      simpa using Spells.nonterminal ha this hts

theorem turned_iff {x item} (h : Turned g g' x item) {ts w} : Spells g ts w ↔ Spells g' ts w := by
  obtain ⟨ho, base, hb, hx, hx'⟩ := h
  constructor <;> intro h <;> refine spells_of_derives ?_ h <;> intro n e w he hs <;> by_cases hn : n = x
  · subst hn
    rcases (hx e).mp he with he | ⟨d, hd, rfl⟩
    · simpa using Spells.nonterminal ((hx' e).mpr (.inl he)) hs .nil
    · obtain ⟨u, v, rfl, h1, h2⟩ := Spells.split (ts := [.nonterminal n]) hs
      exact right_snoc hb hx' hd h2 h1 [] rfl
  · simpa using Spells.nonterminal ((ho n e hn).mp he) hs .nil
  · subst hn
    rcases (hx' e).mp he with he | ⟨d, hd, rfl⟩
    · simpa using Spells.nonterminal ((hx e).mpr (.inl he)) hs .nil
    · obtain ⟨u, v, rfl, h1, h2⟩ := Spells.split hs
      exact left_cons hb hx hd h1 h2 [] rfl
  · simpa using Spells.nonterminal ((ho n e hn).mpr he) hs .nil

end Bnf.Refactor
