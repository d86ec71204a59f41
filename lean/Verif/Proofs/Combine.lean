import Verif.Spec.Combine
import Verif.Props.Chart
import Verif.Props.Copies
import Verif.Proofs.Parts

/-! # Grammars built from other grammars -/

set_option autoImplicit false

namespace Bnf
open Spec Props

namespace Combine

theorem mem_listed_iff {g : Grammar} {T : Term} {e : Expression} : e ∈ listed g T ↔ HasAlt g T e := by
  unfold listed HasAlt
  simp only [List.mem_flatMap, List.mem_filter, decide_eq_true_eq]
  constructor
  · rintro ⟨p, ⟨h1, h2⟩, h3⟩; exact ⟨p, h1, h2, h3⟩
  · rintro ⟨p, h1, h2, h3⟩; exact ⟨p, ⟨h1, h2⟩, h3⟩

theorem timesListed_eq (g : Grammar) (T : Term) (e : Expression) : timesListed g T e = (listed g T).count e := by
  unfold timesListed listed
  generalize g.productions = ps
  induction ps with
  | nil => rfl
  | cons p ps ih =>
    by_cases h : p.lhs = T <;> simp [h, ih]

theorem listed_none {ps : List Production} {T : Term} (h : ∀ p ∈ ps, p.lhs ≠ T) : listed ⟨ps⟩ T = [] := by
  unfold listed
  rw [List.filter_eq_nil_iff.mpr (by simpa using h)]
  rfl

theorem listed_append (ps qs : List Production) (T : Term) : listed ⟨ps ++ qs⟩ T = listed ⟨ps⟩ T ++ listed ⟨qs⟩ T := by
  simp [listed]

theorem listed_cons_eq (p : Production) (ps : List Production) (T : Term) :
    listed ⟨p :: ps⟩ T = (if p.lhs = T then p.rhs else []) ++ listed ⟨ps⟩ T := by
  by_cases h : p.lhs = T <;> simp [listed, h]

theorem listed_self (g : Grammar) (T : Term) : listed ⟨g.productions⟩ T = listed g T := rfl

/-- `G` lists the alternatives of everything that occurs in `g` as `g` does. -/
def Holds (G g : Grammar) : Prop := ∀ T, Mentions g T → listed G T = listed g T

theorem mentions_of_defines {g : Grammar} {T : Term} (h : Defines g T) : Mentions g T := by
  obtain ⟨p, hp, h⟩ := h; exact ⟨p, hp, .inl h⟩

theorem mentions_of_alt {g : Grammar} {T t : Term} {e : Expression} (h : HasAlt g T e) (ht : t ∈ e.terms) : Mentions g t := by
  obtain ⟨p, hp, _, he⟩ := h; exact ⟨p, hp, .inr ⟨e, he, ht⟩⟩

theorem holds_first {s a b : Str} {alts : List Expression} {g₁ g₂ : Grammar} (h : Combinable s a b g₁ g₂) : Holds (ruleFor s alts g₁ g₂) g₁ := by
  intro T hT
  have h1 : (Term.nonterminal s) ≠ T := by rintro rfl; exact h.fresh₁ hT
  rw [ruleFor, listed_cons_eq, listed_append, if_neg h1, listed_none (ps := g₂.productions)]
  · simp [listed_self]
  · intro p hp he; exact h.apart₁ T ⟨p, hp, he⟩ hT

theorem holds_second {s a b : Str} {alts : List Expression} {g₁ g₂ : Grammar} (h : Combinable s a b g₁ g₂) : Holds (ruleFor s alts g₁ g₂) g₂ := by
  intro T hT
  have h1 : (Term.nonterminal s) ≠ T := by rintro rfl; exact h.fresh₂ hT
  rw [ruleFor, listed_cons_eq, listed_append, if_neg h1, listed_none (ps := g₁.productions)]
  · simp [listed_self]
  · intro p hp he; exact h.apart₂ T ⟨p, hp, he⟩ hT

theorem holds_repeated {s a : Str} {g : Grammar} (h : ¬ Mentions g (.nonterminal s)) : Holds (repeated s a g) g := by
  intro T hT
  have h1 : (Term.nonterminal s) ≠ T := by rintro rfl; exact h hT
  rw [repeated, listed_cons_eq, if_neg h1]
  simp [listed_self]

theorem Holds.alt {G g : Grammar} (h : Holds G g) {T : Term} (hT : Mentions g T) (e : Expression) : HasAlt g T e ↔ HasAlt G T e := by
  rw [← mem_listed_iff, ← mem_listed_iff, h T hT]

theorem reachable_mentions {g : Grammar} {S T : Term} (hS : Mentions g S) (h : Reachable g S T) : Mentions g T := by
  cases h with
  | start => exact hS
  | step _ ha ht => exact mentions_of_alt ha ht

theorem Holds.parse {G g : Grammar} (h : Holds G g) {S : Term} (hS : Mentions g S) {w : Str} {t : ParseTree} : IsParse G S w t ↔ IsParse g S w t :=
  (isParse_agree fun _ hl => h.alt (reachable_mentions hS hl)).symm

theorem Holds.derives {G g : Grammar} (h : Holds G g) {S : Term} (hS : Mentions g S) {w : Str} : Derives G S w ↔ Derives g S w :=
  exists_congr fun _ => h.parse hS

theorem Holds.forestCopies {G g : Grammar} (h : Holds G g) {ts ns} (hf : IsForest g ts ns) :
    (∀ t ∈ ts, Mentions g t) → Spec.forestCopies G ns = Spec.forestCopies g ns := by
  induction hf with
  | nil => intro _; rfl
  | terminal _ ih => intro hm; simp only [Spec.forestCopies, nodeCopies, ih fun t ht => hm t (List.mem_cons_of_mem _ ht)]
  | nonterminal ha hk _ ih1 ih2 =>
    intro hm
    simp only [Spec.forestCopies, nodeCopies, ih1 fun t ht => mentions_of_alt ha ht, ih2 fun t ht => hm t (List.mem_cons_of_mem _ ht),
      timesListed_eq, h _ (hm _ (List.mem_cons_self ..))]

theorem Holds.copies {G g : Grammar} (h : Holds G g) {S : Term} (hS : Mentions g S) {w : Str} {t : ParseTree} (ht : IsParse g S w t) :
    Spec.copies G t = Spec.copies g t := by
  obtain ⟨rfl, ⟨e, ha, hf⟩, _⟩ := ht
  rw [Spec.copies, Spec.copies, h.forestCopies hf fun t ht => mentions_of_alt ha ht, timesListed_eq, timesListed_eq, h _ hS]

theorem needed_mentions {g : Grammar} {S T : Term} (hS : Mentions g S) (h : Needed g S T) : Mentions g T := by
  cases h with
  | start => exact hS
  | used _ ha ht => exact mentions_of_alt (mem_listed_iff.mp ha) ht

theorem nonempty_of_mentions {g : Grammar} {S : Term} (hS : Mentions g S) : g.productions ≠ [] := by
  obtain ⟨p, hp, _⟩ := hS; exact List.ne_nil_of_mem hp

theorem Holds.trap {G g : Grammar} (h : Holds G g) (hG : G.productions ≠ []) {S : Term} (hS : Mentions g S) {w : Str} : Trap G S w ↔ Trap g S w := by
  obtain ⟨it, ho⟩ := opened_of (S := S) (input := w) (nonempty_of_mentions hS)
  obtain ⟨it₁, ho₁⟩ := opened_of (S := S) (input := w) hG
  rw [← not_iff_not, ← C54_drain_ends_iff ho, ← C54_drain_ends_iff ho₁]
  exact exists_congr fun ts => ((C82_same_alternatives (fun T hT => (h T (needed_mentions hS hT)).symm) ho ho₁ ts).2.1).symm

/-! ## Calls and derivations -/

theorem returns_iff {g S input it} (ho : Opened g S input it) {t : ParseTree} : Returns it t ↔ IsParse g S input t := by
  constructor
  · rintro ⟨ts, it', hd, ht⟩; exact C01_soundness ho hd t ht
  · intro ht
    obtain ⟨more, it', hd, hm⟩ := C03_completeness ho .nil ht
    exact ⟨more, it', hd, by simpa using hm⟩

theorem ends_iff {g S input it} (ho : Opened g S input it) : (∃ ts, GivesAll it ts) ↔ ¬ Trap g S input := C54_drain_ends_iff ho

theorem accepted_iff {g : Grammar} {n : Str} (hg : g.productions ≠ []) {w : Str} : w ∈ accepted g n ↔ Derives g (.nonterminal n) w := by
  constructor
  · rintro ⟨it, t, it', ho, hn⟩; exact ⟨t, C01_soundness ho (.cons hn .nil) t (by simp)⟩
  · rintro ⟨t, ht⟩
    obtain ⟨it, ho⟩ := opened_of (S := .nonterminal n) (input := w) hg
    obtain ⟨more, it', hd, hm⟩ := C03_completeness ho .nil ht
    cases hd with
    | nil => simp at hm
    | cons hn _ => exact ⟨it, _, _, ho, hn⟩

/-! ## Expected terms, from the top -/

theorem expected_shift {g : Grammar} {S : Term} {n : Str} {e : Expression} {pre post ns r} (ha : HasAlt g S e) (he : e.terms = pre ++ .nonterminal n :: post)
    (hf : IsForest g pre ns) {u T} (h : Expected g (.nonterminal n) r u T) : Expected g S (yield ns ++ r) (yield ns ++ u) T := by
  induction h with
  | start => simpa using Expected.step (u := []) .start ha he hf (r := r) (by simp)
  | step _ ha' he' hf' hr ih =>
    have := Expected.step ih ha' he' hf' (r := _) (by rw [hr]; simp only [List.append_assoc]; rfl)
    simpa using this

theorem expected_top {g : Grammar} {S : Term} {input u : Str} {T : Term} (h : Expected g S input u T) :
    (u = [] ∧ T = S) ∨ ∃ e pre n post ns r u', HasAlt g S e ∧ e.terms = pre ++ .nonterminal n :: post ∧ IsForest g pre ns ∧ input = yield ns ++ r ∧
      u = yield ns ++ u' ∧ Expected g (.nonterminal n) r u' T := by
  induction h with
  | start => exact .inl ⟨rfl, rfl⟩
  | @step u l e pre n post ns r hx ha he hf hr ih =>
    right
    rcases ih with ⟨rfl, rfl⟩ | ⟨e', pre', n', post', ns', r', u', ha', he', hf', hi, hu, hx'⟩
    · exact ⟨e, pre, n, post, ns, r, [], ha, he, hf, by simpa using hr, by simp, .start⟩
    · refine ⟨e', pre', n', post', ns', r', u' ++ yield ns, ha', he', hf', hi, by simp [hu], .step hx' ha he hf (r := r) ?_⟩
      have : yield ns' ++ r' = yield ns' ++ (u' ++ yield ns ++ r) := by rw [← hi, hr, hu]; simp
      exact List.append_cancel_left this

theorem trap_top {g : Grammar} {s : Str} {input : Str} :
    Trap g (.nonterminal s) input ↔ (Cyclic g s ∧ ∃ v r, Derives g (.nonterminal s) v ∧ input = v ++ r) ∨
      ∃ e pre n post ns r, HasAlt g (.nonterminal s) e ∧ e.terms = pre ++ .nonterminal n :: post ∧ IsForest g pre ns ∧ input = yield ns ++ r ∧
        Trap g (.nonterminal n) r := by
  constructor
  · rintro ⟨u, m, v, r, hx, hc, hd, hi⟩
    rcases expected_top hx with ⟨rfl, h⟩ | ⟨e, pre, n, post, ns, r', u', ha, he, hf, hi', hu, hx'⟩
    · injection h with h
      subst h
      exact .inl ⟨hc, v, r, hd, by simpa using hi⟩
    · refine .inr ⟨e, pre, n, post, ns, r', ha, he, hf, hi', u', m, v, r, hx', hc, hd, ?_⟩
      have : yield ns ++ r' = yield ns ++ (u' ++ v ++ r) := by rw [← hi', hi, hu]; simp
      exact List.append_cancel_left this
  · rintro (⟨hc, v, r, hd, hi⟩ | ⟨e, pre, n, post, ns, r', ha, he, hf, hi', u', m, v, r, hx', hc, hd, hi⟩)
    · exact ⟨[], s, v, r, .start, hc, hd, by simpa using hi⟩
    · exact ⟨yield ns ++ u', m, v, r, hi' ▸ expected_shift ha he hf hx', hc, hd, by rw [hi', hi]; simp⟩

/-! ## The rule in front -/

theorem alt_ruleFor {s a b : Str} {alts : List Expression} {g₁ g₂ : Grammar} (h : Combinable s a b g₁ g₂) {e : Expression} :
    HasAlt (ruleFor s alts g₁ g₂) (.nonterminal s) e ↔ e ∈ alts := by
  have h1 : listed ⟨g₁.productions⟩ (.nonterminal s) = [] := listed_none fun p hp he => h.fresh₁ ⟨p, hp, .inl he⟩
  have h2 : listed ⟨g₂.productions⟩ (.nonterminal s) = [] := listed_none fun p hp he => h.fresh₂ ⟨p, hp, .inl he⟩
  rw [← mem_listed_iff, ruleFor, listed_cons_eq, listed_append, h1, h2]
  simp

theorem times_ruleFor {s a b : Str} {alts : List Expression} {g₁ g₂ : Grammar} (h : Combinable s a b g₁ g₂) (e : Expression) :
    timesListed (ruleFor s alts g₁ g₂) (.nonterminal s) e = alts.count e := by
  have h1 : listed ⟨g₁.productions⟩ (.nonterminal s) = [] := listed_none fun p hp he => h.fresh₁ ⟨p, hp, .inl he⟩
  have h2 : listed ⟨g₂.productions⟩ (.nonterminal s) = [] := listed_none fun p hp he => h.fresh₂ ⟨p, hp, .inl he⟩
  rw [timesListed_eq, ruleFor, listed_cons_eq, listed_append, h1, h2]
  simp

theorem alt_repeated {s a : Str} {g : Grammar} (h : ¬ Mentions g (.nonterminal s)) {e : Expression} :
    HasAlt (repeated s a g) (.nonterminal s) e ↔ e = ⟨[.terminal []]⟩ ∨ e = ⟨[.nonterminal a, .nonterminal s]⟩ := by
  have h1 : listed ⟨g.productions⟩ (.nonterminal s) = [] := listed_none fun p hp he => h ⟨p, hp, .inl he⟩
  rw [← mem_listed_iff, repeated, listed_cons_eq, h1]
  simp

/-- A forest for one nonterminal is a tree. -/
theorem forest_one {g : Grammar} {n : Str} {ns} : IsForest g [.nonterminal n] ns ↔
    ∃ t, IsParse g (.nonterminal n) (yield ns) t ∧ ns = [.nonterminal t.lhs t.rhs] := by
  constructor
  · intro h
    cases h with
    | nonterminal ha hk h =>
      cases h
      exact ⟨⟨_, _⟩, ⟨rfl, ⟨_, ha, hk⟩, by simp [yield, nodeYield]⟩, rfl⟩
  · rintro ⟨t, ⟨hr, ⟨e, ha, hf⟩, _⟩, rfl⟩
    rw [hr] at ha ⊢
    exact .nonterminal ha hf .nil

theorem forest_two {g : Grammar} {n m : Str} {ns} : IsForest g [.nonterminal n, .nonterminal m] ns ↔
    ∃ t u, IsParse g (.nonterminal n) (yield t.rhs) t ∧ IsParse g (.nonterminal m) (yield u.rhs) u ∧ ns = [.nonterminal t.lhs t.rhs, .nonterminal u.lhs u.rhs] := by
  constructor
  · intro h
    cases h with
    | nonterminal ha hk h =>
      cases h with
      | nonterminal ha' hk' h =>
        cases h
        exact ⟨⟨_, _⟩, ⟨_, _⟩, ⟨rfl, ⟨_, ha, hk⟩, rfl⟩, ⟨rfl, ⟨_, ha', hk'⟩, rfl⟩, rfl⟩
  · rintro ⟨t, u, ⟨hr, ⟨e, ha, hf⟩, _⟩, ⟨hr', ⟨e', ha', hf'⟩, _⟩, rfl⟩
    rw [hr] at ha ⊢
    rw [hr'] at ha' ⊢
    exact .nonterminal ha hf (.nonterminal ha' hf' .nil)

theorem derives_of_forest_one {g : Grammar} {n : Str} {w : Str} : (∃ ns, IsForest g [.nonterminal n] ns ∧ yield ns = w) ↔ Derives g (.nonterminal n) w := by
  constructor
  · rintro ⟨ns, hf, rfl⟩
    obtain ⟨t, ht, _⟩ := forest_one.mp hf
    exact ⟨t, ht⟩
  · rintro ⟨t, ht⟩
    refine ⟨[.nonterminal t.lhs t.rhs], forest_one.mpr ⟨t, ?_, rfl⟩, ?_⟩
    · have := ht.spells
      simpa [yield, nodeYield, this] using ht
    · simpa [yield, nodeYield] using ht.spells

section Two
variable {s a b : Str} {g₁ g₂ : Grammar} (h : Combinable s a b g₁ g₂)
include h

theorem m₁ : Mentions g₁ (.nonterminal a) := mentions_of_defines h.first
theorem m₂ : Mentions g₂ (.nonterminal b) := mentions_of_defines h.second

theorem a_ne_b : a ≠ b := by
  rintro rfl
  exact h.apart₁ _ h.second (m₁ h)

theorem either_parse {w : Str} {t : ParseTree} : IsParse (either s a b g₁ g₂) (.nonterminal s) w t ↔
    ∃ u, t = over s [u] ∧ (IsParse g₁ (.nonterminal a) w u ∨ IsParse g₂ (.nonterminal b) w u) := by
  have p1 := fun {w t} => (holds_first (alts := [⟨[.nonterminal a]⟩, ⟨[.nonterminal b]⟩]) h).parse (m₁ h) (w := w) (t := t)
  have p2 := fun {w t} => (holds_second (alts := [⟨[.nonterminal a]⟩, ⟨[.nonterminal b]⟩]) h).parse (m₂ h) (w := w) (t := t)
  constructor
  · rintro ⟨hr, ⟨e, ha, hf⟩, hy⟩
    rw [hr] at ha
    have ha := (alt_ruleFor h).mp ha
    obtain ⟨l, rhs⟩ := t
    simp only at hr hf hy
    subst hr
    simp only [List.mem_cons, List.not_mem_nil, or_false] at ha
    rcases ha with rfl | rfl
    · obtain ⟨u, hu, rfl⟩ := forest_one.mp hf
      exact ⟨u, rfl, .inl (p1.mp (hy ▸ hu))⟩
    · obtain ⟨u, hu, rfl⟩ := forest_one.mp hf
      exact ⟨u, rfl, .inr (p2.mp (hy ▸ hu))⟩
  · rintro ⟨u, rfl, hu⟩
    have hy : yield (over s [u]).rhs = w := by
      rcases hu with hu | hu <;> simpa [over, yield, nodeYield] using hu.spells
    rcases hu with hu | hu
    · exact ⟨rfl, ⟨_, (alt_ruleFor h).mpr (by simp), forest_one.mpr ⟨u, hy ▸ p1.mpr hu, rfl⟩⟩, hy⟩
    · exact ⟨rfl, ⟨⟨[.nonterminal b]⟩, (alt_ruleFor h).mpr (by simp), forest_one.mpr ⟨u, hy ▸ p2.mpr hu, rfl⟩⟩, hy⟩

theorem followed_parse {w : Str} {t : ParseTree} : IsParse (followed s a b g₁ g₂) (.nonterminal s) w t ↔
    ∃ u v x y, w = u ++ v ∧ t = over s [x, y] ∧ IsParse g₁ (.nonterminal a) u x ∧ IsParse g₂ (.nonterminal b) v y := by
  have p1 := fun {w t} => (holds_first (alts := [⟨[.nonterminal a, .nonterminal b]⟩]) h).parse (m₁ h) (w := w) (t := t)
  have p2 := fun {w t} => (holds_second (alts := [⟨[.nonterminal a, .nonterminal b]⟩]) h).parse (m₂ h) (w := w) (t := t)
  constructor
  · rintro ⟨hr, ⟨e, ha, hf⟩, hy⟩
    rw [hr] at ha
    have ha := (alt_ruleFor h).mp ha
    obtain ⟨l, rhs⟩ := t
    simp only at hr hf hy
    subst hr
    simp only [List.mem_cons, List.not_mem_nil, or_false] at ha
    subst ha
    obtain ⟨x, y, hx, hy', rfl⟩ := forest_two.mp hf
    exact ⟨_, _, x, y, by simp [← hy, yield, nodeYield], rfl, p1.mp hx, p2.mp hy'⟩
  · rintro ⟨u, v, x, y, rfl, rfl, hx, hy⟩
    refine ⟨rfl, ⟨_, (alt_ruleFor h).mpr (by simp), forest_two.mpr ⟨x, y, p1.mpr (hx.spells.symm ▸ hx), p2.mpr (hy.spells.symm ▸ hy), rfl⟩⟩, ?_⟩
    simp [over, yield, nodeYield, hx.spells, hy.spells]

theorem not_cyclic {alts : List Expression} (hs : ∀ e ∈ alts, Term.nonterminal s ∉ e.terms) : ¬ Cyclic (ruleFor s alts g₁ g₂) s := by
  intro hc
  obtain ⟨m, _, e, pre, post, ha, he, _⟩ := Relation.TransGen.tail'_iff.mp hc
  obtain ⟨p, hp, _, hpe⟩ := ha
  have hm : Term.nonterminal s ∈ e.terms := by rw [he]; simp
  simp only [ruleFor, List.mem_cons, List.mem_append] at hp
  rcases hp with rfl | hp | hp
  · exact hs e hpe hm
  · exact h.fresh₁ ⟨p, hp, .inr ⟨e, hpe, hm⟩⟩
  · exact h.fresh₂ ⟨p, hp, .inr ⟨e, hpe, hm⟩⟩

theorem s_ne : s ≠ a ∧ s ≠ b := by
  constructor
  · rintro rfl; exact h.fresh₁ (m₁ h)
  · rintro rfl; exact h.fresh₂ (m₂ h)

theorem either_trap {w : Str} : Trap (either s a b g₁ g₂) (.nonterminal s) w ↔ Trap g₁ (.nonterminal a) w ∨ Trap g₂ (.nonterminal b) w := by
  have t1 := fun {w} => (holds_first (alts := [⟨[.nonterminal a]⟩, ⟨[.nonterminal b]⟩]) h).trap (by simp [ruleFor]) (m₁ h) (w := w)
  have t2 := fun {w} => (holds_second (alts := [⟨[.nonterminal a]⟩, ⟨[.nonterminal b]⟩]) h).trap (by simp [ruleFor]) (m₂ h) (w := w)
  have hne := s_ne h
  rw [trap_top, ← t1, ← t2]
  constructor
  · rintro (⟨hc, _⟩ | ⟨e, pre, n, post, ns, r, ha, he, hf, hi, ht⟩)
    · exact absurd hc (not_cyclic h (by simp [hne.1, hne.2]))
    · have ha := (alt_ruleFor h).mp ha
      simp only [List.mem_cons, List.not_mem_nil, or_false] at ha
      rcases ha with rfl | rfl
      · cases pre with
        | nil =>
          simp only [List.nil_append, List.cons.injEq] at he
          obtain ⟨he, _⟩ := he
          injection he with he; subst he
          cases hf
          simp only [yield, List.nil_append] at hi
          subst hi
          exact .inl ht
        | cons _ _ => simp at he
      · cases pre with
        | nil =>
          simp only [List.nil_append, List.cons.injEq] at he
          obtain ⟨he, _⟩ := he
          injection he with he; subst he
          cases hf
          simp only [yield, List.nil_append] at hi
          subst hi
          exact .inr ht
        | cons _ _ => simp at he
  · rintro (ht | ht)
    · exact .inr ⟨⟨[.nonterminal a]⟩, [], a, [], [], w, (alt_ruleFor h).mpr (by simp), rfl, .nil, by simp [yield], ht⟩
    · exact .inr ⟨⟨[.nonterminal b]⟩, [], b, [], [], w, (alt_ruleFor h).mpr (by simp), rfl, .nil, by simp [yield], ht⟩

theorem followed_trap {w : Str} : Trap (followed s a b g₁ g₂) (.nonterminal s) w ↔
    Trap g₁ (.nonterminal a) w ∨ ∃ u v, w = u ++ v ∧ Derives g₁ (.nonterminal a) u ∧ Trap g₂ (.nonterminal b) v := by
  have t1 := fun {w} => (holds_first (alts := [⟨[.nonterminal a, .nonterminal b]⟩]) h).trap (by simp [ruleFor]) (m₁ h) (w := w)
  have d1 := fun {w} => (holds_first (alts := [⟨[.nonterminal a, .nonterminal b]⟩]) h).derives (m₁ h) (w := w)
  have t2 := fun {w} => (holds_second (alts := [⟨[.nonterminal a, .nonterminal b]⟩]) h).trap (by simp [ruleFor]) (m₂ h) (w := w)
  have hne := s_ne h
  rw [trap_top, ← t1]
  simp only [← t2, ← d1]
  constructor
  · rintro (⟨hc, _⟩ | ⟨e, pre, n, post, ns, r, ha, he, hf, hi, ht⟩)
    · exact absurd hc (not_cyclic h (by simp [hne.1, hne.2]))
    · have ha := (alt_ruleFor h).mp ha
      simp only [List.mem_cons, List.not_mem_nil, or_false] at ha
      subst ha
      rcases pre with _ | ⟨x, _ | ⟨y, pre⟩⟩
      · simp only [List.nil_append, List.cons.injEq] at he
        obtain ⟨he, _⟩ := he
        injection he with he; subst he
        cases hf
        simp only [yield, List.nil_append] at hi
        subst hi
        exact .inl ht
      · simp only [List.cons_append, List.nil_append, List.cons.injEq] at he
        obtain ⟨rfl, he, _⟩ := he
        injection he with he; subst he
        exact .inr ⟨_, r, hi, derives_of_forest_one.mp ⟨ns, hf, rfl⟩, ht⟩
      · simp at he
  · rintro (ht | ⟨u, v, rfl, hd, ht⟩)
    · exact .inr ⟨⟨[.nonterminal a, .nonterminal b]⟩, [], a, [.nonterminal b], [], w, (alt_ruleFor h).mpr (by simp), rfl, .nil, by simp [yield], ht⟩
    · obtain ⟨ns, hf, hy⟩ := derives_of_forest_one.mpr hd
      exact .inr ⟨⟨[.nonterminal a, .nonterminal b]⟩, [.nonterminal a], b, [], ns, v, (alt_ruleFor h).mpr (by simp), rfl, hf, by rw [hy], ht⟩

/-! ## Numbers of trees -/

open scoped Classical

omit h in
theorem yields_count {g S input it ts} (ho : Opened g S input it) (hy : GivesAll it ts) (t : ParseTree) :
    ts.count t = if IsParse g S input t then Spec.copies g t else 0 := by
  obtain ⟨it1, it2, hd, hn⟩ := hy
  exact C04_copies_exact ho hd hn t

omit h in
theorem over_injective (u u' : ParseTree) (e : over s [u] = over s [u']) : u = u' := by
  obtain ⟨l, r⟩ := u
  obtain ⟨l', r'⟩ := u'
  simpa [over] using e

theorem either_copies₁ {w : Str} {u : ParseTree} (hu : IsParse g₁ (.nonterminal a) w u) : Spec.copies (either s a b g₁ g₂) (over s [u]) = Spec.copies g₁ u := by
  have hc := (holds_first (alts := [⟨[.nonterminal a]⟩, ⟨[.nonterminal b]⟩]) h).copies (m₁ h) hu
  have hl := hu.root
  have hab := a_ne_b h
  rw [← hc]
  simp only [Spec.copies, over, List.map_cons, List.map_nil, Spec.forestCopies, nodeCopies, rootTerm, hl, either]
  rw [times_ruleFor h]
  simp [Ne.symm hab]

theorem either_copies₂ {w : Str} {u : ParseTree} (hu : IsParse g₂ (.nonterminal b) w u) : Spec.copies (either s a b g₁ g₂) (over s [u]) = Spec.copies g₂ u := by
  have hc := (holds_second (alts := [⟨[.nonterminal a]⟩, ⟨[.nonterminal b]⟩]) h).copies (m₂ h) hu
  have hl := hu.root
  have hab := a_ne_b h
  rw [← hc]
  simp only [Spec.copies, over, List.map_cons, List.map_nil, Spec.forestCopies, nodeCopies, rootTerm, hl, either]
  rw [times_ruleFor h]
  simp [List.count_cons, hab]

theorem either_perm {w : Str} {it it₁ it₂ ts ts₁ ts₂} (ho : Opened (either s a b g₁ g₂) (.nonterminal s) w it) (ho₁ : Opened g₁ (.nonterminal a) w it₁)
    (ho₂ : Opened g₂ (.nonterminal b) w it₂) (hy : GivesAll it ts) (hy₁ : GivesAll it₁ ts₁) (hy₂ : GivesAll it₂ ts₂) :
    ts.Perm (ts₁.map (fun u => over s [u]) ++ ts₂.map fun u => over s [u]) := by
  have hab := a_ne_b h
  rw [List.perm_iff_count]
  intro t
  rw [List.count_append, yields_count ho hy]
  by_cases ht : ∃ u, t = over s [u]
  · obtain ⟨u, rfl⟩ := ht
    rw [List.count_map_of_injective _ (fun u => over s [u]) (fun u u' e => over_injective u u' e),
      List.count_map_of_injective _ (fun u => over s [u]) (fun u u' e => over_injective u u' e), yields_count ho₁ hy₁, yields_count ho₂ hy₂]
    by_cases h1 : IsParse g₁ (.nonterminal a) w u
    · have h2 : ¬ IsParse g₂ (.nonterminal b) w u := fun h2 => hab (by have := h1.root.symm.trans h2.root; injection this)
      rw [if_pos ((either_parse h).mpr ⟨u, rfl, .inl h1⟩), if_pos h1, if_neg h2, either_copies₁ h h1, Nat.add_zero]
    · by_cases h2 : IsParse g₂ (.nonterminal b) w u
      · rw [if_pos ((either_parse h).mpr ⟨u, rfl, .inr h2⟩), if_neg h1, if_pos h2, either_copies₂ h h2, Nat.zero_add]
      · rw [if_neg, if_neg h1, if_neg h2]
        intro h3
        obtain ⟨u', e, h3⟩ := (either_parse h).mp h3
        cases over_injective _ _ e
        exact h3.elim h1 h2
  · rw [if_neg fun h3 => ht (by obtain ⟨u, e, _⟩ := (either_parse h).mp h3; exact ⟨u, e⟩), List.count_eq_zero_of_not_mem, List.count_eq_zero_of_not_mem]
    · intro hm
      obtain ⟨u, _, e⟩ := List.mem_map.mp hm
      exact ht ⟨u, e.symm⟩
    · intro hm
      obtain ⟨u, _, e⟩ := List.mem_map.mp hm
      exact ht ⟨u, e.symm⟩

theorem followed_copies {u v : Str} {x y : ParseTree} (hx : IsParse g₁ (.nonterminal a) u x) (hy : IsParse g₂ (.nonterminal b) v y) :
    Spec.copies (followed s a b g₁ g₂) (over s [x, y]) = Spec.copies g₁ x * Spec.copies g₂ y := by
  have hc := (holds_first (alts := [⟨[.nonterminal a, .nonterminal b]⟩]) h).copies (m₁ h) hx
  have hc' := (holds_second (alts := [⟨[.nonterminal a, .nonterminal b]⟩]) h).copies (m₂ h) hy
  have hl := hx.root
  have hl' := hy.root
  rw [← hc, ← hc']
  simp only [Spec.copies, over, List.map_cons, List.map_nil, Spec.forestCopies, nodeCopies, rootTerm, hl, hl', followed]
  rw [times_ruleFor h]
  simp

omit h in
theorem over_two (x y x' y' : ParseTree) (e : over s [x, y] = over s [x', y']) : x = x' ∧ y = y' := by
  obtain ⟨l, r⟩ := x
  obtain ⟨l', r'⟩ := y
  obtain ⟨l₁, r₁⟩ := x'
  obtain ⟨l₂, r₂⟩ := y'
  simpa [over, and_assoc] using e

omit h in
theorem count_pairs (s : Str) (xs ys : List ParseTree) (x y : ParseTree) :
    (xs.flatMap fun x => ys.map fun y => over s [x, y]).count (over s [x, y]) = xs.count x * ys.count y := by
  induction xs with
  | nil => simp
  | cons z xs ih =>
    rw [List.flatMap_cons, List.count_append, ih, List.count_cons]
    by_cases hz : z = x
    · subst hz
      rw [List.count_map_of_injective ys (fun y => over s [z, y]) (fun y y' e => (over_two _ _ _ _ e).2)]
      simp [Nat.add_mul, Nat.add_comm]
    · rw [List.count_eq_zero_of_not_mem]
      · simp [hz]
      · intro hm
        obtain ⟨y', _, e⟩ := List.mem_map.mp hm
        exact hz (over_two _ _ _ _ e).1

omit h in
theorem mem_cuts {w u v : Str} : (u, v) ∈ cuts w ↔ w = u ++ v := by
  simp only [cuts, List.mem_map, List.mem_range, Prod.mk.injEq]
  constructor
  · rintro ⟨i, _, rfl, rfl⟩; exact (List.take_append_drop i w).symm
  · rintro rfl; exact ⟨u.length, by simp, by simp, by simp⟩

omit h in
theorem cuts_nodup (w : Str) : (cuts w).Nodup := by
  refine List.Nodup.map_on ?_ List.nodup_range
  intro i hi j hj e
  simp only [List.mem_range] at hi hj
  have := congrArg (fun c => c.1.length) e
  simp at this
  omega

omit h in
theorem sum_single {α : Type} [DecidableEq α] (l : List α) (f : α → Nat) (c : α) (hl : l.Nodup) (hc : c ∈ l) (h0 : ∀ d ∈ l, d ≠ c → f d = 0) : (l.map f).sum = f c := by
  induction l with
  | nil => simp at hc
  | cons d l ih =>
    rw [List.map_cons, List.sum_cons]
    rw [List.nodup_cons] at hl
    by_cases hd : d = c
    · subst hd
      rw [List.sum_eq_zero (l := l.map f)]
      · simp
      · intro n hn
        obtain ⟨e, he, rfl⟩ := List.mem_map.mp hn
        exact h0 e (List.mem_cons_of_mem _ he) fun e' => hl.1 (e' ▸ he)
    · rw [h0 d (List.mem_cons_self ..) hd, Nat.zero_add]
      exact ih hl.2 (by simpa [Ne.symm hd] using hc) fun e he => h0 e (List.mem_cons_of_mem _ he)

theorem followed_perm {w : Str} {it ts} (ho : Opened (followed s a b g₁ g₂) (.nonterminal s) w it) (hy : GivesAll it ts) {T₁ T₂ : Str → List ParseTree}
    (hT₁ : ∀ u v, w = u ++ v → ∃ it₁, Opened g₁ (.nonterminal a) u it₁ ∧ GivesAll it₁ (T₁ u))
    (hT₂ : ∀ u v, w = u ++ v → ∃ it₂, Opened g₂ (.nonterminal b) v it₂ ∧ GivesAll it₂ (T₂ v)) :
    ts.Perm ((cuts w).flatMap fun c => (T₁ c.1).flatMap fun x => (T₂ c.2).map fun y => over s [x, y]) := by
  rw [List.perm_iff_count]
  intro t
  rw [yields_count ho hy, List.count_flatMap]
  by_cases ht : ∃ x y, t = over s [x, y]
  · obtain ⟨x, y, rfl⟩ := ht
    have hfun : (List.count (over s [x, y]) ∘ fun c : Str × Str => (T₁ c.1).flatMap fun x => (T₂ c.2).map fun y => over s [x, y]) =
        fun c => (T₁ c.1).count x * (T₂ c.2).count y := funext fun c => count_pairs s _ _ x y
    rw [hfun]
    have hone : ∀ c ∈ cuts w, (T₁ c.1).count x * (T₂ c.2).count y ≠ 0 → IsParse g₁ (.nonterminal a) c.1 x ∧ IsParse g₂ (.nonterminal b) c.2 y := by
      rintro ⟨u, v⟩ hc hne
      have hc := mem_cuts.mp hc
      obtain ⟨i1, o1, y1⟩ := hT₁ u v hc
      obtain ⟨i2, o2, y2⟩ := hT₂ u v hc
      rw [yields_count o1 y1, yields_count o2 y2] at hne
      constructor
      · by_contra h1; simp [h1] at hne
      · by_contra h1; simp [h1] at hne
    by_cases hp : IsParse (followed s a b g₁ g₂) (.nonterminal s) w (over s [x, y])
    · obtain ⟨u, v, x', y', hw, e, hx, hy'⟩ := (followed_parse h).mp hp
      obtain ⟨rfl, rfl⟩ := over_two _ _ _ _ e
      rw [if_pos hp, followed_copies h hx hy', sum_single _ _ (u, v) (cuts_nodup w) (mem_cuts.mpr hw)]
      · obtain ⟨i1, o1, y1⟩ := hT₁ u v hw
        obtain ⟨i2, o2, y2⟩ := hT₂ u v hw
        rw [yields_count o1 y1, yields_count o2 y2, if_pos hx, if_pos hy']
      · intro d hd hne
        by_contra h0
        obtain ⟨h1, h2⟩ := hone d hd h0
        exact hne (Prod.ext (h1.spells.symm.trans hx.spells) (h2.spells.symm.trans hy'.spells))
    · rw [if_neg hp]
      symm
      refine List.sum_eq_zero ?_
      intro n hn
      obtain ⟨d, hd, rfl⟩ := List.mem_map.mp hn
      by_contra h0
      obtain ⟨h1, h2⟩ := hone d hd h0
      exact hp ((followed_parse h).mpr ⟨d.1, d.2, x, y, mem_cuts.mp hd, rfl, h1, h2⟩)
  · rw [if_neg fun h3 => ht (by obtain ⟨_, _, x, y, _, e, _⟩ := (followed_parse h).mp h3; exact ⟨x, y, e⟩)]
    symm
    refine List.sum_eq_zero ?_
    intro n hn
    obtain ⟨d, hd, rfl⟩ := List.mem_map.mp hn
    refine List.count_eq_zero_of_not_mem ?_
    simp only [List.mem_flatMap, List.mem_map]
    rintro ⟨x, _, y, _, e⟩
    exact ht ⟨x, y, e.symm⟩

end Two

/-! ## Repetition -/

section Rep
variable {s a : Str} {g : Grammar} (hs : ¬ Mentions g (.nonterminal s)) (hd : Defines g (.nonterminal a))
include hs hd

theorem repeated_parse {w : Str} {t : ParseTree} : IsParse (repeated s a g) (.nonterminal s) w t ↔
    ∃ us ws, t = chain s us ∧ w = ws.flatten ∧ List.Forall₂ (fun w u => IsParse g (.nonterminal a) w u) ws us := by
  have p1 := fun {w t} => (holds_repeated (a := a) hs).parse (mentions_of_defines hd) (w := w) (t := t)
  constructor
  · intro ht
    induction hn : sizeOf t.rhs using Nat.strong_induction_on generalizing w t with
    | _ n ih =>
      obtain ⟨hr, ⟨e, ha, hf⟩, hy⟩ := ht
      rw [hr] at ha
      obtain ⟨l, rhs⟩ := t
      simp only at hr hf hy hn
      subst hr
      rcases (alt_repeated hs).mp ha with rfl | rfl
      · cases hf with
        | terminal h =>
          cases h
          exact ⟨[], [], rfl, by simpa [yield, nodeYield] using hy.symm, .nil⟩
      · obtain ⟨x, y, hx, hy', rfl⟩ := forest_two.mp hf
        obtain ⟨us, ws, e, hw, hf2⟩ := ih (sizeOf y.rhs) (by rw [← hn]; simp; omega) hy' rfl
        refine ⟨x :: us, yield x.rhs :: ws, ?_, ?_, .cons (p1.mp hx) hf2⟩
        · rw [chain, ← e]; rfl
        · rw [List.flatten_cons, ← hw, ← hy]; simp [yield, nodeYield]
  · rintro ⟨us, ws, rfl, rfl, hf⟩
    induction hf with
    | nil => exact ⟨rfl, ⟨_, (alt_repeated hs).mpr (.inl rfl), .terminal .nil⟩, by simp [chain, yield, nodeYield]⟩
    | @cons w u ws us h _ ih =>
      refine ⟨rfl, ⟨_, (alt_repeated hs).mpr (.inr rfl), forest_two.mpr ⟨u, chain s us, p1.mpr (h.spells.symm ▸ h), ih.spells.symm ▸ ih, rfl⟩⟩, ?_⟩
      simp [chain, over, yield, nodeYield, h.spells, ih.spells]

theorem repeated_derives {w : Str} : Derives (repeated s a g) (.nonterminal s) w ↔
    ∃ ws : List Str, w = ws.flatten ∧ ∀ x ∈ ws, Derives g (.nonterminal a) x := by
  constructor
  · rintro ⟨t, ht⟩
    obtain ⟨us, ws, e, hw, hf⟩ := (repeated_parse hs hd).mp ht
    refine ⟨ws, hw, fun x hx => ?_⟩
    clear hw e
    induction hf with
    | nil => simp at hx
    | cons h _ ih =>
      rcases List.mem_cons.mp hx with rfl | hx
      · exact ⟨_, h⟩
      · exact ih hx
  · rintro ⟨ws, rfl, hw⟩
    have : ∃ us, List.Forall₂ (fun w u => IsParse g (.nonterminal a) w u) ws us := by
      induction ws with
      | nil => exact ⟨[], .nil⟩
      | cons x ws ih =>
        obtain ⟨us, h⟩ := ih fun y hy => hw y (List.mem_cons_of_mem _ hy)
        obtain ⟨u, hu⟩ := hw x (List.mem_cons_self ..)
        exact ⟨u :: us, .cons hu h⟩
    obtain ⟨us, h⟩ := this
    exact ⟨_, (repeated_parse hs hd).mpr ⟨us, ws, rfl, rfl, h⟩⟩

theorem repeated_cyclic : Cyclic (repeated s a g) s ↔ Derives g (.nonterminal a) [] := by
  have d1 := fun {w} => (holds_repeated (a := a) hs).derives (mentions_of_defines hd) (w := w)
  have hne : s ≠ a := by rintro rfl; exact hs (mentions_of_defines hd)
  constructor
  · intro hc
    obtain ⟨m, _, e, pre, post, ha, he, hpre, hpost⟩ := Relation.TransGen.tail'_iff.mp hc
    have hm : m = s := by
      obtain ⟨p, hp, hpl, hpe⟩ := ha
      have hm : Term.nonterminal s ∈ e.terms := by rw [he]; simp
      simp only [repeated, List.mem_cons] at hp
      rcases hp with rfl | hp
      · injection hpl with hpl; exact hpl.symm
      · exact absurd ⟨p, hp, .inr ⟨e, hpe, hm⟩⟩ hs
    subst hm
    rcases (alt_repeated hs).mp ha with rfl | rfl
    · rcases pre with _ | ⟨x, pre⟩ <;> simp at he
    · rcases pre with _ | ⟨x, _ | ⟨y, pre⟩⟩
      · simp only [List.nil_append, List.cons.injEq] at he
        obtain ⟨he, _⟩ := he
        injection he with he
        exact absurd he.symm hne
      · simp only [List.cons_append, List.nil_append, List.cons.injEq] at he
        obtain ⟨rfl, _⟩ := he
        exact d1.mp (derives_of_forest_one.mp hpre)
      · simp at he
  · intro h
    refine .single ⟨⟨[.nonterminal a, .nonterminal s]⟩, [.nonterminal a], [], (alt_repeated hs).mpr (.inr rfl), rfl, ?_, [], .nil, rfl⟩
    exact derives_of_forest_one.mpr (d1.mpr h)

theorem repeated_trap {w : Str} : Trap (repeated s a g) (.nonterminal s) w ↔ Derives g (.nonterminal a) [] ∨
    ∃ u v, w = u ++ v ∧ Derives (repeated s a g) (.nonterminal s) u ∧ Trap g (.nonterminal a) v := by
  have d1 := fun {w} => (holds_repeated (a := a) hs).derives (mentions_of_defines hd) (w := w)
  have t1 := fun {w} => (holds_repeated (a := a) hs).trap (by simp [repeated]) (mentions_of_defines hd) (w := w)
  have hnil : Derives (repeated s a g) (.nonterminal s) [] := (repeated_derives hs hd).mpr ⟨[], rfl, by simp⟩
  constructor
  · intro ht
    by_cases h0 : Derives g (.nonterminal a) []
    · exact .inl h0
    right
    induction hn : w.length using Nat.strong_induction_on generalizing w with
    | _ n ih =>
      rcases trap_top.mp ht with ⟨hc, _⟩ | ⟨e, pre, n', post, ns, r, ha, he, hf, hi, ht⟩
      · exact absurd ((repeated_cyclic hs hd).mp hc) h0
      · rcases (alt_repeated hs).mp ha with rfl | rfl
        · rcases pre with _ | ⟨x, pre⟩ <;> simp at he
        · rcases pre with _ | ⟨x, _ | ⟨y, pre⟩⟩
          · simp only [List.nil_append, List.cons.injEq] at he
            obtain ⟨he, _⟩ := he
            injection he with he; subst he
            cases hf
            simp only [yield, List.nil_append] at hi
            subst hi
            exact ⟨[], w, rfl, hnil, t1.mp ht⟩
          · simp only [List.cons_append, List.nil_append, List.cons.injEq] at he
            obtain ⟨rfl, he, _⟩ := he
            injection he with he; subst he
            have hx := derives_of_forest_one.mp ⟨ns, hf, rfl⟩
            have hx := d1.mp hx
            have hne : Spec.yield ns ≠ [] := fun e => h0 (e ▸ hx)
            obtain ⟨u, v, rfl, hu, hv⟩ := ih r.length (by
              rw [← hn, hi, List.length_append]
              have := List.length_pos_iff.mpr hne
              omega) ht rfl
            refine ⟨Spec.yield ns ++ u, v, by rw [hi, List.append_assoc], ?_, hv⟩
            obtain ⟨ws, rfl, hws⟩ := (repeated_derives hs hd).mp hu
            exact (repeated_derives hs hd).mpr ⟨Spec.yield ns :: ws, rfl, by
              intro y hy
              rcases List.mem_cons.mp hy with rfl | hy
              · exact hx
              · exact hws y hy⟩
          · simp at he
  · rintro (h0 | ⟨u, v, rfl, hu, hv⟩)
    · exact trap_top.mpr (.inl ⟨(repeated_cyclic hs hd).mpr h0, [], w, hnil, rfl⟩)
    · obtain ⟨ws, rfl, hws⟩ := (repeated_derives hs hd).mp hu
      clear hu
      induction ws with
      | nil => exact trap_top.mpr (.inr ⟨⟨[.nonterminal a, .nonterminal s]⟩, [], a, [.nonterminal s], [], v, (alt_repeated hs).mpr (.inr rfl), rfl, .nil,
          by simp [yield], t1.mpr hv⟩)
      | cons x ws ih =>
        obtain ⟨ns, hf, hy⟩ := derives_of_forest_one.mpr (d1.mpr (hws x (List.mem_cons_self ..)))
        exact trap_top.mpr (.inr ⟨⟨[.nonterminal a, .nonterminal s]⟩, [.nonterminal a], s, [], ns, ws.flatten ++ v, (alt_repeated hs).mpr (.inr rfl), rfl, hf,
          by rw [hy, List.flatten_cons, List.append_assoc], ih fun y hy => hws y (List.mem_cons_of_mem _ hy)⟩)

end Rep

end Combine
end Bnf
