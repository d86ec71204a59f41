import Verif.Proofs.Ebnf
import Verif.Proofs.TextMain
import Verif.Spec.Defined

/-! References of the normalized grammar, in terms of the text. -/

set_option autoImplicit false

namespace Bnf
open Spec

section
variable {D : Str → List Expression → Prop}

/-- A nonterminal in a lowered alternative is written there, or it is generated. -/
theorem lowTs_refs {x : Str} : ∀ {ts : List ParsedTerm} {ts' : List Term}, LowTs D ts ts' → .nonterminal x ∈ ts' →
    Within (.term (.simple (.nonterminal x))) (.terms ts) ∨ ∃ r, D x r := by
  intro ts
  induction ts with
  | nil => intro ts' h hx; simp only [LowTs] at h; subst h; cases hx
  | cons t ts ih =>
    intro ts' h hx
    simp only [LowTs] at h
    obtain ⟨t', ts'', rfl, h1, h2⟩ := h
    rcases List.mem_cons.mp hx with rfl | hx
    · cases t with
      | simple t =>
        simp only [LowT] at h1; subst h1
        exact .inl (.terms (List.mem_cons_self ..) .refl)
      | group as =>
        simp only [LowT] at h1
        obtain ⟨y, rhs, hy, hD, _⟩ := h1
        injection hy with hy; subst hy
        exact .inr ⟨_, hD⟩
      | optional as =>
        simp only [LowT] at h1
        obtain ⟨y, rhs, hy, hD, _⟩ := h1
        injection hy with hy; subst hy
        exact .inr ⟨_, hD⟩
    · rcases ih h2 hx with h | h
      · cases h with
        | terms hm hw => exact .inl (.terms (List.mem_cons_of_mem _ hm) hw)
      · exact .inr h

theorem lowA_refs {x : Str} : ∀ {as : List (List ParsedTerm)} {rhs : List Expression}, LowA D as rhs → ∀ e ∈ rhs,
    .nonterminal x ∈ e.terms → Within (.term (.simple (.nonterminal x))) (.alts as) ∨ ∃ r, D x r := by
  intro as
  induction as with
  | nil => intro rhs h e he; simp only [LowA] at h; subst h; cases he
  | cons a as ih =>
    intro rhs h e he hx
    simp only [LowA] at h
    obtain ⟨e', es', rfl, h1, h2⟩ := h
    rcases List.mem_cons.mp he with rfl | he
    · exact (lowTs_refs h1 hx).imp_left fun h => .alts (List.mem_cons_self ..) h
    · rcases ih h2 e he hx with h | h
      · cases h with
        | alts hm hw => exact .inl (.alts (List.mem_cons_of_mem _ hm) hw)
      · exact .inr h

theorem lowTs_elem {t : ParsedTerm} : ∀ {ts : List ParsedTerm} {ts'}, LowTs D ts ts' → t ∈ ts → ∃ t' ∈ ts', LowT D t t' := by
  intro ts
  induction ts with
  | nil => intro _ _ h; cases h
  | cons u ts ih =>
    intro ts' h ht
    simp only [LowTs] at h
    obtain ⟨t', ts'', rfl, h1, h2⟩ := h
    rcases List.mem_cons.mp ht with rfl | ht
    · exact ⟨t', List.mem_cons_self .., h1⟩
    · obtain ⟨y, hy, hl⟩ := ih h2 ht
      exact ⟨y, List.mem_cons_of_mem _ hy, hl⟩

theorem lowA_elem {e : List ParsedTerm} : ∀ {as : List (List ParsedTerm)} {rhs}, LowA D as rhs → e ∈ as →
    ∃ e' ∈ rhs, LowTs D e e'.terms := by
  intro as
  induction as with
  | nil => intro _ _ h; cases h
  | cons u ts ih =>
    intro ts' h ht
    simp only [LowA] at h
    obtain ⟨t', ts'', rfl, h1, h2⟩ := h
    rcases List.mem_cons.mp ht with rfl | ht
    · exact ⟨t', List.mem_cons_self .., h1⟩
    · obtain ⟨y, hy, hl⟩ := ih h2 ht
      exact ⟨y, List.mem_cons_of_mem _ hy, hl⟩

/-- What being used inside an item means for its lowered form. -/
def UsedLow (D : Str → List Expression → Prop) (g : Grammar) (x : Str) : Item → Prop
  | .term t => ∀ t', LowT D t t' → t' = .nonterminal x ∨ Referenced g x
  | .terms ts => ∀ ts', LowTs D ts ts' → .nonterminal x ∈ ts' ∨ Referenced g x
  | .alts as => ∀ rhs, LowA D as rhs → (∃ e ∈ rhs, .nonterminal x ∈ e.terms) ∨ Referenced g x

theorem usedLow_of_within {pg : ParsedGrammar} {g : Grammar} (hn : Normal pg g D) {x : Str} {i j : Item} (h : Within i j)
    (hi : i = .term (.simple (.nonterminal x))) : UsedLow D g x j := by
  induction h with
  | refl =>
    subst hi
    intro t' ht
    simp only [LowT] at ht
    exact .inl ht
  | terms hm _ ih =>
    intro ts' hl
    obtain ⟨t', ht', hlt⟩ := lowTs_elem hl hm
    rcases ih t' hlt with rfl | h
    · exact .inl ht'
    · exact .inr h
  | alts hm _ ih =>
    intro rhs hl
    obtain ⟨e', he', hle⟩ := lowA_elem hl hm
    exact (ih _ hle).imp_left fun h => ⟨e', he', h⟩
  | group _ ih =>
    intro t' hl
    simp only [LowT] at hl
    obtain ⟨y, rhs, rfl, hD, ha⟩ := hl
    refine .inr ?_
    rcases ih rhs ha with ⟨e, he, hx⟩ | h
    · rw [if_neg (by intro h; rw [List.isEmpty_iff.mp h] at he; cases he)] at hD
      exact ⟨_, e, (hn.anon y _ hD e).mpr he, hx⟩
    · exact h
  | optional _ ih =>
    intro t' hl
    simp only [LowT] at hl
    obtain ⟨y, rhs, rfl, hD, ha⟩ := hl
    refine .inr ?_
    rcases ih rhs ha with ⟨e, he, hx⟩ | h
    · exact ⟨_, e, (hn.anon y _ hD e).mpr (List.mem_append_left _ he), hx⟩
    · exact h

end

/-- The nonterminals referenced in the normalized grammar are those used in the text and generated ones that are defined. -/
theorem normalize_references {pg g} (h : normalizeParsedGrammar pg = some g) (x : Str) :
    (UsedIn x pg → Referenced g x) ∧
    (Referenced g x → UsedIn x pg ∨ (¬ DeclaredIn x pg ∧ (∃ k, x = anonName k) ∧ Defined g x)) := by
  obtain ⟨D, hD⟩ := normalize_normal h
  constructor
  · rintro ⟨p, hp, hw⟩
    obtain ⟨rhs, hl, ha⟩ := hD.user p hp
    rcases usedLow_of_within hD hw rfl rhs hl with ⟨e, he, hx⟩ | h
    · exact ⟨_, e, ha e he, hx⟩
    · exact h
  · obtain ⟨user, anon, h1, h2, h3, h4, h5⟩ := normalize_spec h
    have hgen : ∀ r, DefIn anon x r → ¬ DeclaredIn x pg ∧ (∃ k, x = anonName k) ∧ Defined g x := by
      intro r hr
      obtain ⟨y, k, hy, hny, hk⟩ := h4 _ hr
      injection hy with hy; subst hy
      refine ⟨fun ⟨q, hq, hl⟩ => hny (List.mem_map.mpr ⟨q, hq, hl⟩), ⟨k, hk⟩, ?_⟩
      obtain ⟨q, hq, ho⟩ := h5 _ hr
      obtain ⟨as, rhs, hla, hc⟩ := ho _ (List.mem_singleton.mpr rfl)
      have : r ≠ [] := by
        rcases hc with ⟨_, hr⟩ | ⟨_, hr⟩
        · simp only at hr; rw [hr]; split
          · simp
          · rename_i h; intro h'; rw [h'] at h; exact h rfl
        · simp only at hr; rw [hr]; simp
      obtain ⟨e, he⟩ := List.exists_mem_of_ne_nil _ this
      exact ⟨e, _, by rw [h1]; exact List.mem_append_right _ hr, rfl, he⟩
    rintro ⟨lhs, e, ⟨p, hp, _, he⟩, hx⟩
    rw [h1] at hp
    rcases List.mem_append.mp hp with hp | hp
    · obtain ⟨q, hq, _, hla⟩ := forall₂_mem_right h2 p hp
      rcases lowA_refs hla e he hx with hw | ⟨r, hr⟩
      · exact .inl ⟨q, hq, hw⟩
      · exact .inr (hgen r hr)
    · obtain ⟨q, hq, ho⟩ := h5 p hp
      obtain ⟨as, rhs, hla, hc⟩ := ho p (List.mem_singleton.mpr rfl)
      have hcase : (e ∈ rhs ∨ e = emptyAlt) ∧ Within (.alts as) (.alts q.rhs) := by
        rcases hc with ⟨hw, hr⟩ | ⟨hw, hr⟩
        · refine ⟨?_, Within.trans (.group .refl) hw⟩
          rw [hr] at he; split at he
          · exact .inr (List.mem_singleton.mp he)
          · exact .inl he
        · refine ⟨?_, Within.trans (.optional .refl) hw⟩
          rw [hr] at he
          exact (List.mem_append.mp he).imp_right List.mem_singleton.mp
      rcases hcase with ⟨he | rfl, hw⟩
      · rcases lowA_refs hla e he hx with hw' | ⟨r, hr⟩
        · exact .inl ⟨q, hq, hw'.trans hw⟩
        · exact .inr (hgen r hr)
      · simp [emptyAlt] at hx

end Bnf
