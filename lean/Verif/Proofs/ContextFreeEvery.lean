import Mathlib.Data.List.Sublists
import Verif.Proofs.ContextFree

/-! # Every context-free language has a grammar without empty and unit alternatives -/

set_option autoImplicit false

namespace Bnf
open Spec

namespace CF

variable (G : ContextFreeGrammar Char)

/-- Some non-empty word can be derived. -/
def Live (A : G.NT) : Prop := ∃ w, w ≠ [] ∧ CfSpells (· ∈ G.rules) [.nonterminal A] w

/-- The alternatives of the new grammar. -/
def NewAlt (A : G.NT) (β : List (Symbol Char G.NT)) : Prop :=
  (∃ r ∈ G.rules, β ∈ r.output.sublists ∧ G.Derives [.nonterminal A] [.nonterminal r.input] ∧ G.Derives r.output β) ∧
    β ≠ [] ∧ (∀ B, β ≠ [.nonterminal B]) ∧ ∀ B, .nonterminal B ∈ β → Live G B

variable {G}

theorem NewAlt.derives {A : G.NT} {β} (h : NewAlt G A β) : G.Derives [.nonterminal A] β := by
  obtain ⟨⟨r, hr, _, h1, h2⟩, _⟩ := h
  exact h1.trans ((ContextFreeGrammar.Produces.single ⟨r, hr, .input_output⟩).trans h2)

/-- Derivations with the new alternatives, every nonterminal with a non-empty word. -/
inductive NF (G : ContextFreeGrammar Char) : List (Symbol Char G.NT) → Str → Prop
  | nil : NF G [] []
  | char {c s w} : NF G s w → NF G (.terminal c :: s) (c :: w)
  | nt {B β s w₁ w₂} : NewAlt G B β → NF G β w₁ → w₁ ≠ [] → NF G s w₂ → NF G (.nonterminal B :: s) (w₁ ++ w₂)

theorem NF.derives {s : List (Symbol Char G.NT)} {w} (h : NF G s w) : G.Derives s (w.map .terminal) := by
  induction h with
  | nil => exact .refl _
  | char _ ih => simpa using ih.append_left [Symbol.terminal _]
  | @nt B β s w₁ w₂ ha _ _ _ ih1 ih2 =>
    have h1 := (ha.derives.trans ih1).append_right s
    have h3 := ih2.append_left (w₁.map Symbol.terminal)
    rw [List.map_append]
    exact h1.trans h3

theorem NF.live {s : List (Symbol Char G.NT)} {w} (h : NF G s w) : ∀ B, .nonterminal B ∈ s → Live G B := by
  induction h with
  | nil => simp
  | char _ ih => intro B hB; exact ih B (by simpa using hB)
  | @nt B β s w₁ w₂ ha h1 hne _ _ ih2 =>
    intro C hC
    rcases List.mem_cons.mp hC with e | hC
    · injection e with e
      subst e
      exact ⟨w₁, hne, CfSpells.of_derives (ha.derives.trans h1.derives)⟩
    · exact ih2 C hC

theorem spells_nf {s : List (Symbol Char G.NT)} {w} (h : CfSpells (· ∈ G.rules) s w) :
    ∃ β, β.Sublist s ∧ G.Derives s β ∧ NF G β w := by
  induction h with
  | nil => exact ⟨[], .slnil, .refl _, .nil⟩
  | char _ ih =>
    obtain ⟨β, h1, h2, h3⟩ := ih
    exact ⟨_ :: β, h1.cons_cons _, by simpa using h2.append_left [Symbol.terminal _], .char h3⟩
  | @nt r s w₁ w₂ hr hs1 _ ih1 ih2 =>
    obtain ⟨β₁, a1, a2, a3⟩ := ih1
    obtain ⟨β₂, b1, b2, b3⟩ := ih2
    have hp : G.Derives [.nonterminal r.input] r.output := ContextFreeGrammar.Produces.single ⟨r, hr, .input_output⟩
    by_cases hw : w₁ = []
    · subst hw
      refine ⟨β₂, b1.cons _, ?_, b3⟩
      have h1 := (hp.trans hs1.derives).append_right s
      exact h1.trans b2
    · refine ⟨.nonterminal r.input :: β₂, b1.cons_cons _, by simpa using b2.append_left [Symbol.nonterminal r.input], ?_⟩
      by_cases hu : ∃ B, β₁ = [.nonterminal B]
      · obtain ⟨B, rfl⟩ := hu
        generalize hg : [Symbol.nonterminal B] = γ at a3
        cases a3 with
        | nil => simp at hg
        | char h => simp at hg
        | @nt B' β' s' x y ha h1 hne h2 =>
          simp only [List.cons.injEq, Symbol.nonterminal.injEq, List.nil_eq] at hg
          obtain ⟨rfl, rfl⟩ := hg
          cases h2
          rw [List.append_nil] at hw ⊢
          refine .nt ⟨?_, ha.2⟩ h1 hne b3
          obtain ⟨q, hq, c1, c2, c3⟩ := ha.1
          exact ⟨q, hq, c1, (hp.trans a2).trans c2, c3⟩
      · refine .nt ⟨⟨r, hr, List.mem_sublists.mpr a1, .refl _, a2⟩, ?_, fun B e => hu ⟨B, e⟩, a3.live⟩ a3 hw b3
        rintro rfl
        cases a3
        exact hw rfl

/-! ## The grammar -/

open Classical in
/-- All new alternatives of `A`. -/
noncomputable def alts (G : ContextFreeGrammar Char) (A : G.NT) : List (List (Symbol Char G.NT)) :=
  (G.rules.toList.flatMap fun r => r.output.sublists).filter (NewAlt G A)

theorem mem_alts {A : G.NT} {β} : β ∈ alts G A ↔ NewAlt G A β := by
  simp only [alts, List.mem_filter, List.mem_flatMap, Finset.mem_toList, decide_eq_true_eq, and_iff_right_iff_imp]
  rintro ⟨⟨r, hr, h, _⟩, _⟩
  exact ⟨r, hr, h⟩

open Classical in
/-- All live nonterminals. -/
noncomputable def lives (G : ContextFreeGrammar Char) : List G.NT := (G.rules.toList.map (·.input)).filter (Live G)

theorem mem_lives {A : G.NT} : A ∈ lives G ↔ Live G A := by
  simp only [lives, List.mem_filter, List.mem_map, Finset.mem_toList, decide_eq_true_eq, and_iff_right_iff_imp]
  rintro ⟨w, hne, h⟩
  generalize hg : [Symbol.nonterminal A] = γ at h
  cases h with
  | nil => simp at hg
  | char h => simp at hg
  | @nt r _ _ _ hr _ _ =>
    simp only [List.cons.injEq, Symbol.nonterminal.injEq] at hg
    exact ⟨r, hr, hg.1.symm⟩

open Classical in
noncomputable def name (G : ContextFreeGrammar Char) (A : G.NT) : Str := List.replicate ((lives G).idxOf A + 1) 'n'

theorem name_inj {A B : G.NT} (hA : Live G A) (h : name G A = name G B) : A = B := by
  classical
  have h1 := congrArg List.length h
  simp only [name, List.length_replicate, Nat.add_right_cancel_iff] at h1
  exact (List.idxOf_inj (mem_lives.mpr hA)).mp h1

theorem name_ne (A : G.NT) : name G A ≠ ['s'] := by
  intro h
  have : 's' ∈ name G A := by rw [h]; simp
  simp only [name, List.mem_replicate] at this
  exact absurd this.2 (by decide)

theorem name_ok (A : G.NT) : '>' ∉ name G A := by
  simp only [name, List.mem_replicate, not_and]
  intro _; decide

noncomputable def toTerm (G : ContextFreeGrammar Char) : Symbol Char G.NT → Term
  | .terminal c => .terminal [c]
  | .nonterminal A => .nonterminal (name G A)

noncomputable def altsOf (G : ContextFreeGrammar Char) (A : G.NT) : List Expression :=
  (alts G A).map fun β => ⟨β.map (toTerm G)⟩

open Classical in
/-- Alternatives of the start: those of the initial nonterminal, and the empty word if it belongs to the language. -/
noncomputable def startWords (G : ContextFreeGrammar Char) : List Expression :=
  (if [] ∈ G.language then [⟨[.terminal []]⟩] else []) ++ altsOf G G.initial

/-- If there is none: an alternative from which nothing can be derived. -/
noncomputable def startAlts (G : ContextFreeGrammar Char) : List Expression :=
  if (startWords G).isEmpty then [⟨[.terminal ['x'], .nonterminal ['s']]⟩] else startWords G

noncomputable def gram (G : ContextFreeGrammar Char) : Grammar :=
  ⟨⟨.nonterminal ['s'], startAlts G⟩ :: (lives G).map fun A => ⟨.nonterminal (name G A), altsOf G A⟩⟩

/-- Words of the alternatives are words of the language. -/
theorem hasAlt_name {A : G.NT} (hA : Live G A) {e} :
    HasAlt (gram G) (.nonterminal (name G A)) e ↔ ∃ β, NewAlt G A β ∧ e = ⟨β.map (toTerm G)⟩ := by
  constructor
  · rintro ⟨p, hp, hl, he⟩
    simp only [gram, List.mem_cons, List.mem_map] at hp
    rcases hp with rfl | ⟨B, hB, rfl⟩
    · simp only [Term.nonterminal.injEq] at hl
      exact absurd hl.symm (name_ne A)
    · simp only [Term.nonterminal.injEq] at hl
      have := name_inj (mem_lives.mp hB) hl
      subst this
      simp only [altsOf, List.mem_map, mem_alts] at he
      obtain ⟨β, h1, rfl⟩ := he
      exact ⟨β, h1, rfl⟩
  · rintro ⟨β, h, rfl⟩
    refine ⟨⟨.nonterminal (name G A), altsOf G A⟩, ?_, rfl, ?_⟩
    · simp only [gram, List.mem_cons, List.mem_map]
      exact .inr ⟨A, mem_lives.mpr hA, rfl⟩
    · simp only [altsOf, List.mem_map, mem_alts]
      exact ⟨β, h, rfl⟩

theorem hasAlt_start {e} : HasAlt (gram G) (.nonterminal ['s']) e ↔ e ∈ startAlts G := by
  constructor
  · rintro ⟨p, hp, hl, he⟩
    simp only [gram, List.mem_cons, List.mem_map] at hp
    rcases hp with rfl | ⟨B, hB, rfl⟩
    · exact he
    · simp only [Term.nonterminal.injEq] at hl
      exact absurd hl (name_ne B)
  · intro h
    exact ⟨⟨.nonterminal ['s'], startAlts G⟩, by simp [gram], rfl, h⟩

theorem forest_derives {ts ns} (h : IsForest (gram G) ts ns) : ∀ β : List (Symbol Char G.NT), ts = β.map (toTerm G) →
    (∀ B, .nonterminal B ∈ β → Live G B) → G.Derives β ((yield ns).map .terminal) := by
  induction h with
  | nil => intro β h _; simp only [List.nil_eq, List.map_eq_nil_iff] at h; subst h; exact .refl _
  | @terminal s ts ns _ ih =>
    intro β h hl
    cases β with
    | nil => simp at h
    | cons x β =>
      cases x with
      | nonterminal A => simp [toTerm] at h
      | terminal c =>
        simp only [List.map_cons, toTerm, List.cons.injEq, Term.terminal.injEq] at h
        obtain ⟨rfl, h⟩ := h
        have := ih β h fun B hB => hl B (List.mem_cons_of_mem _ hB)
        simpa [yield, nodeYield] using this.append_left [Symbol.terminal c]
  | @nonterminal n e kids ts ns ha _ _ ih1 ih2 =>
    intro β h hl
    cases β with
    | nil => simp at h
    | cons x β =>
      cases x with
      | terminal A => simp [toTerm] at h
      | nonterminal A =>
        simp only [List.map_cons, toTerm, List.cons.injEq, Term.nonterminal.injEq] at h
        obtain ⟨rfl, h⟩ := h
        obtain ⟨γ, h1, rfl⟩ := (hasAlt_name (hl A List.mem_cons_self)).mp ha
        have h2 := ih1 γ rfl h1.2.2.2
        have h3 := ih2 β h fun B hB => hl B (List.mem_cons_of_mem _ hB)
        have h4 := (h1.derives.trans h2).append_right β
        have h5 := h3.append_left ((yield kids).map Symbol.terminal)
        simp only [yield, nodeYield, List.map_append]
        exact h4.trans h5

theorem nf_forest {β : List (Symbol Char G.NT)} {w} (h : NF G β w) :
    ∃ ns, IsForest (gram G) (β.map (toTerm G)) ns ∧ yield ns = w := by
  induction h with
  | nil => exact ⟨[], .nil, rfl⟩
  | char _ ih =>
    obtain ⟨ns, h1, rfl⟩ := ih
    exact ⟨_, .terminal h1, by simp [yield, nodeYield]⟩
  | @nt B β s w₁ w₂ ha hn hne _ ih1 ih2 =>
    obtain ⟨ks, h1, rfl⟩ := ih1
    obtain ⟨ns, h2, rfl⟩ := ih2
    have hB : Live G B := ⟨_, hne, CfSpells.of_derives (ha.derives.trans hn.derives)⟩
    exact ⟨_, .nonterminal ((hasAlt_name hB).mpr ⟨β, ha, rfl⟩) h1 h2, by simp [yield, nodeYield]⟩

theorem nf_single {A : G.NT} {w} (h : NF G [.nonterminal A] w) : ∃ β, NewAlt G A β ∧ NF G β w := by
  generalize hg : [Symbol.nonterminal A] = γ at h
  cases h with
  | nil => simp at hg
  | char h => simp at hg
  | @nt B' β' s' x y ha h1 hne h2 =>
    simp only [List.cons.injEq, Symbol.nonterminal.injEq, List.nil_eq] at hg
    obtain ⟨rfl, rfl⟩ := hg
    cases h2
    exact ⟨β', ha, by simpa using h1⟩

theorem spells_newAlt {A : G.NT} {w} (hw : w ≠ []) (h : CfSpells (· ∈ G.rules) [.nonterminal A] w) :
    ∃ β, NewAlt G A β ∧ NF G β w := by
  obtain ⟨β, h1, _, h3⟩ := spells_nf h
  rcases List.sublist_cons_iff.mp h1 with h1 | ⟨r, e, h1⟩
  · simp only [List.sublist_nil] at h1
    subst h1
    cases h3
    exact absurd rfl hw
  · rw [List.sublist_nil.mp h1] at e
    subst e
    exact nf_single h3

theorem start_word {w : Str} (h : w ∈ G.language) : ∃ e ∈ startWords G, ∃ ns, IsForest (gram G) e.terms ns ∧ yield ns = w := by
  classical
  by_cases hw : w = []
  · subst hw
    refine ⟨⟨[.terminal []]⟩, ?_, [.terminal []], .terminal .nil, by simp [yield, nodeYield]⟩
    unfold startWords
    rw [if_pos h]
    simp
  · obtain ⟨β, h1, h2⟩ := spells_newAlt hw (CfSpells.of_derives ((ContextFreeGrammar.mem_language_iff _ _).mp h))
    obtain ⟨ns, h3, h4⟩ := nf_forest h2
    refine ⟨⟨β.map (toTerm G)⟩, ?_, ns, h3, h4⟩
    simp only [startWords, List.mem_append]
    exact .inr (List.mem_map.mpr ⟨β, mem_alts.mpr h1, rfl⟩)

theorem gram_language (w : Str) : Derives (gram G) (.nonterminal ['s']) w ↔ w ∈ G.language := by
  classical
  constructor
  · rintro ⟨t, h1, ⟨e, ha, hf⟩, h3⟩
    rw [h1, hasAlt_start] at ha
    unfold startAlts at ha
    split at ha
    · exfalso
      rename_i hE
      simp only [List.mem_cons, List.not_mem_nil, or_false] at ha
      have : ∀ {ts ns}, IsForest (gram G) ts ns → Term.nonterminal ['s'] ∉ ts := by
        intro ts ns h
        induction h with
        | nil => simp
        | terminal _ ih => simpa using ih
        | @nonterminal n e kids ts ns ha _ _ ih1 ih2 =>
          intro hm
          rcases List.mem_cons.mp hm with h | h
          · injection h with h
            subst h
            rw [hasAlt_start] at ha
            unfold startAlts at ha
            rw [if_pos hE] at ha
            simp only [List.mem_cons, List.not_mem_nil, or_false] at ha
            subst ha
            exact ih1 (by simp)
          · exact ih2 h
      subst ha
      exact this hf (by simp)
    · simp only [startWords, List.mem_append] at ha
      rcases ha with ha | ha
      · split at ha
        · rename_i he
          simp only [List.mem_cons, List.not_mem_nil, or_false] at ha
          subst ha
          simp only at hf
          generalize t.rhs = ns at hf h3
          cases hf with
          | terminal h => cases h; simp [yield, nodeYield] at h3; rw [h3]; exact he
        · simp at ha
      · simp only [altsOf, List.mem_map, mem_alts] at ha
        obtain ⟨β, hb, rfl⟩ := ha
        have := forest_derives hf β rfl hb.2.2.2
        rw [h3] at this
        exact (ContextFreeGrammar.mem_language_iff _ _).mpr (hb.derives.trans this)
  · intro h
    obtain ⟨e, he, ns, h1, h2⟩ := start_word h
    refine ⟨⟨.nonterminal ['s'], ns⟩, rfl, ⟨e, hasAlt_start.mpr ?_, h1⟩, h2⟩
    unfold startAlts
    rw [if_neg]
    · exact he
    · simp only [List.isEmpty_iff]
      rintro hE
      rw [hE] at he
      simp at he

/-- Terms without an empty derivation. -/
def Proper (G : ContextFreeGrammar Char) (ts : List Term) : Prop := ∃ β : List (Symbol Char G.NT), ts = β.map (toTerm G) ∧
  ∀ B, .nonterminal B ∈ β → Live G B

theorem proper_yield {ts ns} (h : IsForest (gram G) ts ns) : Proper G ts → ts ≠ [] → yield ns ≠ [] := by
  induction h with
  | nil => intro _ h; exact absurd rfl h
  | @terminal s ts ns _ _ =>
    rintro ⟨β, h, _⟩ _
    cases β with
    | nil => simp at h
    | cons x β =>
      cases x with
      | nonterminal A => simp [toTerm] at h
      | terminal c =>
        simp only [List.map_cons, toTerm, List.cons.injEq, Term.terminal.injEq] at h
        simp [yield, nodeYield, h.1]
  | @nonterminal n e kids ts ns ha _ _ ih1 _ =>
    rintro ⟨β, h, hl⟩ _
    cases β with
    | nil => simp at h
    | cons x β =>
      cases x with
      | terminal A => simp [toTerm] at h
      | nonterminal A =>
        simp only [List.map_cons, toTerm, List.cons.injEq, Term.nonterminal.injEq] at h
        obtain ⟨rfl, h⟩ := h
        obtain ⟨γ, h1, rfl⟩ := (hasAlt_name (hl A List.mem_cons_self)).mp ha
        have := ih1 ⟨γ, rfl, h1.2.2.2⟩ (by simpa using h1.2.1)
        simp [yield, nodeYield, this]

theorem no_unit {A : G.NT} {β} (h : NewAlt G A β) {pre m post} (he : β.map (toTerm G) = pre ++ .nonterminal m :: post)
    (h1 : Nullable (gram G) pre) (h2 : Nullable (gram G) post) : False := by
  obtain ⟨b1, b2, rfl, e1, e2⟩ := List.map_eq_append_iff.mp he
  cases b2 with
  | nil => simp at e2
  | cons x b2 =>
    simp only [List.map_cons, List.cons.injEq] at e2
    obtain ⟨e2, e3⟩ := e2
    obtain ⟨n1, f1, y1⟩ := h1
    obtain ⟨n2, f2, y2⟩ := h2
    have hl := h.2.2.2
    have p1 : pre = [] := by
      by_contra hc
      exact proper_yield f1 ⟨b1, e1.symm, fun B hB => hl B (by simp [hB])⟩ hc y1
    have p2 : post = [] := by
      by_contra hc
      exact proper_yield f2 ⟨b2, e3.symm, fun B hB => hl B (by simp [hB])⟩ hc y2
    subst p1 p2
    simp only [List.map_eq_nil_iff] at e1 e3
    subst e1 e3
    cases x with
    | terminal c => simp [toTerm] at e2
    | nonterminal B => exact h.2.2.1 B rfl

theorem gram_acyclic : Acyclic (gram G) := by
  classical
  have key : ∀ n m, ¬ UnitStep (gram G) n m := by
    rintro n m ⟨e, pre, post, ⟨p, hp, hl, he⟩, hts, h1, h2⟩
    simp only [gram, List.mem_cons, List.mem_map] at hp
    rcases hp with rfl | ⟨A, hA, rfl⟩
    · simp only [startAlts] at he
      split at he
      · simp only [List.mem_cons, List.not_mem_nil, or_false] at he
        subst he
        simp only at hts
        match pre, hts with
        | [], hts => simp at hts
        | [a], hts =>
          simp only [List.cons_append, List.nil_append, List.cons.injEq] at hts
          rw [← hts.1] at h1
          obtain ⟨ns, hf, hy⟩ := h1
          cases hf with
          | terminal h => simp [yield, nodeYield] at hy
        | a :: b :: c, hts => simp at hts
      · simp only [startWords, List.mem_append] at he
        rcases he with he | he
        · split at he
          · simp only [List.mem_cons, List.not_mem_nil, or_false] at he
            subst he
            simp only at hts
            match pre, hts with
            | [], hts => simp at hts
            | a :: b, hts => simp at hts
          · simp at he
        · simp only [altsOf, List.mem_map, mem_alts] at he
          obtain ⟨β, hb, rfl⟩ := he
          exact no_unit hb hts h1 h2
    · simp only [altsOf, List.mem_map, mem_alts] at he
      obtain ⟨β, hb, rfl⟩ := he
      exact no_unit hb hts h1 h2
  intro n h
  obtain ⟨m, h, _⟩ := Relation.TransGen.head'_iff.mp h
  exact key n m h

theorem alt_cases {lhs e} (h : HasAlt (gram G) lhs e) :
    e = ⟨[.terminal ['x'], .nonterminal ['s']]⟩ ∨ e = ⟨[.terminal []]⟩ ∨ ∃ A β, NewAlt G A β ∧ e = ⟨β.map (toTerm G)⟩ := by
  classical
  obtain ⟨p, hp, hl, he⟩ := h
  simp only [gram, List.mem_cons, List.mem_map] at hp
  have key : ∀ A, e ∈ altsOf G A → ∃ A β, NewAlt G A β ∧ e = ⟨β.map (toTerm G)⟩ := by
    intro A he
    simp only [altsOf, List.mem_map, mem_alts] at he
    obtain ⟨β, hb, rfl⟩ := he
    exact ⟨A, β, hb, rfl⟩
  rcases hp with rfl | ⟨A, hA, rfl⟩
  · simp only [startAlts] at he
    split at he
    · exact .inl (by simpa using he)
    · simp only [startWords, List.mem_append] at he
      rcases he with he | he
      · split at he
        · exact .inr (.inl (by simpa using he))
        · simp at he
      · exact .inr (.inr (key _ he))
  · exact .inr (.inr (key _ he))

theorem gram_defined (n : Str) (h : Referenced (gram G) n) : Defined (gram G) n := by
  obtain ⟨lhs, e, ha, hm⟩ := h
  rcases alt_cases ha with rfl | rfl | ⟨A, β, hb, rfl⟩
  · simp at hm
    subst hm
    have : startAlts G ≠ [] := by
      unfold startAlts
      split
      · simp
      · rename_i h; simpa using h
    obtain ⟨e, he⟩ := List.exists_mem_of_ne_nil _ this
    exact ⟨e, hasAlt_start.mpr he⟩
  · simp at hm
  · simp only [List.mem_map] at hm
    obtain ⟨x, hx, hn⟩ := hm
    cases x with
    | terminal c => simp [toTerm] at hn
    | nonterminal B =>
      simp only [toTerm, Term.nonterminal.injEq] at hn
      subst hn
      obtain ⟨w, hw, hs⟩ := hb.2.2.2 B hx
      obtain ⟨β, h1, _⟩ := spells_newAlt hw hs
      exact ⟨_, (hasAlt_name (hb.2.2.2 B hx)).mpr ⟨β, h1, rfl⟩⟩

theorem gram_printable : PrintableGrammar (gram G) := by
  refine ⟨by simp [gram], fun p hp => ?_⟩
  have hx : ∀ e ∈ p.rhs, PrintableExpression e := by
    intro e he
    rcases alt_cases ⟨p, hp, rfl, he⟩ with rfl | rfl | ⟨A, β, hb, rfl⟩
    · simp [PrintableExpression, Printable]
    · simp [PrintableExpression, Printable]
    · refine ⟨by simpa using hb.2.1, fun t ht => ?_⟩
      simp only [List.mem_map] at ht
      obtain ⟨x, _, rfl⟩ := ht
      cases x with
      | terminal c =>
        simp only [toTerm, Printable]
        by_cases hc : c = '\''
        · left; subst hc; decide
        · right; simpa using fun h => hc h.symm
      | nonterminal B => exact name_ok B
  simp only [gram, List.mem_cons, List.mem_map] at hp
  rcases hp with rfl | ⟨A, hA, rfl⟩
  · refine ⟨⟨_, rfl, by decide⟩, ?_, hx⟩
    simp only [startAlts]
    split
    · simp
    · rename_i h; simpa using h
  · refine ⟨⟨_, rfl, name_ok A⟩, ?_, hx⟩
    obtain ⟨w, hw, hs⟩ := mem_lives.mp hA
    obtain ⟨β, h1, _⟩ := spells_newAlt hw hs
    simp only [altsOf, ne_eq, List.map_eq_nil_iff]
    intro h
    have := mem_alts.mpr h1
    rw [h] at this
    simp at this

end CF

end Bnf
