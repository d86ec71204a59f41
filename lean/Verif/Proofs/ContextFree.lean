import Verif.Spec.ContextFree
import Verif.Spec.Acyclic
import Verif.Spec.Defined
import Verif.Spec.Text

/-! # Grammars and context-free languages -/

set_option autoImplicit false

namespace Bnf
open Spec

/-! ## Words of a string of symbols, by big steps -/

section
variable {T N : Type}

/-- The string of symbols can be rewritten to the word by the rules. -/
inductive CfSpells (R : ContextFreeRule T N → Prop) : List (Symbol T N) → List T → Prop
  | nil : CfSpells R [] []
  | char {c s w} : CfSpells R s w → CfSpells R (.terminal c :: s) (c :: w)
  | nt {r s w₁ w₂} : R r → CfSpells R r.output w₁ → CfSpells R s w₂ → CfSpells R (.nonterminal r.input :: s) (w₁ ++ w₂)

variable {R : ContextFreeRule T N → Prop}

theorem CfSpells.append {s₁ s₂ w₁ w₂} (h : CfSpells R s₁ w₁) (h' : CfSpells R s₂ w₂) : CfSpells R (s₁ ++ s₂) (w₁ ++ w₂) := by
  induction h with
  | nil => exact h'
  | char _ ih => exact .char ih
  | nt hr h1 _ _ ih2 => rw [List.cons_append, List.append_assoc]; exact .nt hr h1 ih2

theorem CfSpells.split {s₁ : List (Symbol T N)} : ∀ {s₂ w}, CfSpells R (s₁ ++ s₂) w →
    ∃ w₁ w₂, w = w₁ ++ w₂ ∧ CfSpells R s₁ w₁ ∧ CfSpells R s₂ w₂ := by
  induction s₁ with
  | nil => intro s₂ w h; exact ⟨[], w, rfl, .nil, h⟩
  | cons x s ih =>
    intro s₂ w h
    generalize hs : x :: s ++ s₂ = u at h
    cases h with
    | nil => simp at hs
    | char h =>
      simp only [List.cons_append, List.cons.injEq] at hs
      obtain ⟨rfl, rfl⟩ := hs
      obtain ⟨a, b, rfl, h1, h2⟩ := ih h
      exact ⟨_ :: a, b, rfl, .char h1, h2⟩
    | nt hr h1 h2 =>
      simp only [List.cons_append, List.cons.injEq] at hs
      obtain ⟨rfl, rfl⟩ := hs
      obtain ⟨a, b, rfl, h3, h4⟩ := ih h2
      exact ⟨_ ++ a, b, by simp, .nt hr h1 h3, h4⟩

theorem CfSpells.self : ∀ w : List T, CfSpells R (w.map .terminal) w
  | [] => .nil
  | _ :: w => .char (CfSpells.self w)

theorem CfSpells.expand {r : ContextFreeRule T N} (hr : R r) {u v} (h : r.Rewrites u v) :
    ∀ {w}, CfSpells R v w → CfSpells R u w := by
  induction h with
  | head s =>
    intro w h
    obtain ⟨a, b, rfl, h1, h2⟩ := h.split
    exact .nt hr h1 h2
  | cons x _ ih =>
    intro w h
    generalize hs : x :: _ = u at h
    cases h with
    | nil => simp at hs
    | char h => simp only [List.cons.injEq] at hs; obtain ⟨rfl, rfl⟩ := hs; exact .char (ih h)
    | nt hr h1 h2 => simp only [List.cons.injEq] at hs; obtain ⟨rfl, rfl⟩ := hs; exact .nt hr h1 (ih h2)

variable {G : ContextFreeGrammar T}

theorem CfSpells.derives {s : List (Symbol T G.NT)} {w} (h : CfSpells (· ∈ G.rules) s w) : G.Derives s (w.map .terminal) := by
  induction h with
  | nil => exact .refl _
  | char _ ih => simpa using ih.append_left [Symbol.terminal _]
  | @nt r s w₁ w₂ hr _ _ ih1 ih2 =>
    have h1 : G.Produces (.nonterminal r.input :: s) (r.output ++ s) := ⟨r, hr, .head s⟩
    have h2 := ih1.append_right s
    have h3 := ih2.append_left (w₁.map Symbol.terminal)
    rw [List.map_append]
    exact h1.trans_derives (h2.trans h3)

theorem CfSpells.of_derives {u : List (Symbol T G.NT)} {w} (h : G.Derives u (w.map .terminal)) : CfSpells (· ∈ G.rules) u w := by
  generalize hv : w.map Symbol.terminal = v at h
  induction h using Relation.ReflTransGen.head_induction_on with
  | refl => rw [← hv]; exact .self w
  | head h _ ih => obtain ⟨r, hr, h⟩ := h; exact ih.expand hr h

theorem cfSpells_iff {u : List (Symbol T G.NT)} {w} : CfSpells (· ∈ G.rules) u w ↔ G.Derives u (w.map .terminal) :=
  ⟨CfSpells.derives, CfSpells.of_derives⟩

end

/-! ## A grammar and its context-free grammar have the same language -/

/-- The rules of the context-free grammar of `g`. -/
def AltRule (g : Grammar) (r : ContextFreeRule Char Term) : Prop :=
  ∃ e, HasAlt g r.input e ∧ r.output = e.terms.flatMap symbols

theorem mem_cfgRules {g : Grammar} {r : ContextFreeRule Char Term} : r ∈ cfgRules g ↔ AltRule g r := by
  simp only [cfgRules, List.mem_toFinset, List.mem_flatMap, List.mem_map, HasAlt, AltRule]
  constructor
  · rintro ⟨p, hp, e, he, rfl⟩; exact ⟨e, ⟨p, hp, rfl, he⟩, rfl⟩
  · rintro ⟨e, ⟨p, hp, hl, he⟩, ho⟩
    exact ⟨p, hp, e, he, by cases r; simp_all⟩

theorem mem_cfg_rules {g : Grammar} {S : Term} : (fun r => r ∈ (cfg g S).rules) = AltRule g :=
  funext fun _ => propext mem_cfgRules

theorem forest_cfSpells {g : Grammar} {ts ns} (h : IsForest g ts ns) :
    CfSpells (AltRule g) (ts.flatMap symbols) (yield ns) := by
  induction h with
  | nil => exact .nil
  | terminal _ ih => simp only [List.flatMap_cons, symbols, yield, nodeYield]; exact (CfSpells.self (R := AltRule g) _).append ih
  | @nonterminal n e kids ts ns ha _ _ ih1 ih2 =>
    simp only [List.flatMap_cons, symbols, yield, nodeYield, List.singleton_append]
    exact CfSpells.nt (R := AltRule g) (r := ⟨.nonterminal n, e.terms.flatMap symbols⟩) ⟨e, ha, rfl⟩ ih1 ih2

theorem cfSpells_forest {g : Grammar} {s w} (h : CfSpells (AltRule g) s w) :
    ∀ ts : List Term, s = ts.flatMap symbols → ∃ ns, IsForest g ts ns ∧ yield ns = w := by
  induction h with
  | nil =>
    intro ts
    induction ts with
    | nil => intro _; exact ⟨[], .nil, rfl⟩
    | cons t ts ih =>
      intro h
      cases t with
      | nonterminal n => simp [symbols] at h
      | terminal u =>
        simp only [List.flatMap_cons, symbols, List.nil_eq, List.append_eq_nil_iff, List.map_eq_nil_iff] at h
        obtain ⟨rfl, h⟩ := h
        obtain ⟨ns, h1, h2⟩ := ih h.symm
        exact ⟨_, .terminal h1, by simp [yield, nodeYield, h2]⟩
  | @char c s w _ ih0 =>
    intro ts
    induction ts with
    | nil => intro h; simp at h
    | cons t ts ih =>
      intro h
      cases t with
      | nonterminal n => simp [symbols] at h
      | terminal u =>
        cases u with
        | nil =>
          obtain ⟨ns, h1, h2⟩ := ih (by simpa [symbols] using h)
          exact ⟨_, .terminal h1, by simp [yield, nodeYield, h2]⟩
        | cons d u =>
          simp only [List.flatMap_cons, symbols, List.map_cons, List.cons_append, List.cons.injEq, Symbol.terminal.injEq] at h
          obtain ⟨rfl, h⟩ := h
          obtain ⟨ns, h1, h2⟩ := ih0 (.terminal u :: ts) (by simp [symbols, h])
          cases h1 with
          | terminal h1 => exact ⟨_, .terminal h1, by simpa [yield, nodeYield] using h2⟩
  | @nt r s w₁ w₂ hr _ _ ih1 ih2 =>
    intro ts
    induction ts with
    | nil => intro h; simp at h
    | cons t ts ih =>
      intro h
      cases t with
      | terminal u =>
        cases u with
        | nil =>
          obtain ⟨ns, h1, h2⟩ := ih (by simpa [symbols] using h)
          exact ⟨_, .terminal h1, by simp [yield, nodeYield, h2]⟩
        | cons d u => simp [symbols] at h
      | nonterminal n =>
        simp only [List.flatMap_cons, symbols, List.singleton_append, List.cons.injEq, Symbol.nonterminal.injEq] at h
        obtain ⟨hn, h⟩ := h
        obtain ⟨e, ha, ho⟩ := hr
        rw [hn] at ha
        obtain ⟨ks, h1, rfl⟩ := ih1 _ ho
        obtain ⟨ns, h2, rfl⟩ := ih2 _ h
        exact ⟨_, .nonterminal ha h1 h2, by simp [yield, nodeYield]⟩

theorem derives_iff_language {g : Grammar} {S : Term} {w : Str} : Derives g S w ↔ w ∈ (cfg g S).language := by
  rw [ContextFreeGrammar.mem_language_iff, ← cfSpells_iff, mem_cfg_rules]
  show _ ↔ CfSpells (AltRule g) [.nonterminal S] w
  constructor
  · rintro ⟨t, h1, ⟨e, ha, hf⟩, h3⟩
    have := CfSpells.nt (R := AltRule g) (r := ⟨S, e.terms.flatMap symbols⟩) ⟨e, h1 ▸ ha, rfl⟩
      (forest_cfSpells hf) .nil
    rw [h3, List.append_nil] at this
    exact this
  · intro h
    generalize hs : [Symbol.nonterminal S] = s at h
    cases h with
    | nil => simp at hs
    | char h => simp at hs
    | @nt r s w₁ w₂ hr h1 h2 =>
      simp only [List.cons.injEq, Symbol.nonterminal.injEq, List.nil_eq] at hs
      obtain ⟨h, rfl⟩ := hs
      cases h2
      obtain ⟨e, ha, ho⟩ := hr
      obtain ⟨ns, h4, h5⟩ := cfSpells_forest h1 _ ho
      exact ⟨⟨S, ns⟩, rfl, ⟨e, by rw [← h] at ha; exact ha, h4⟩, by simpa using h5⟩

end Bnf
