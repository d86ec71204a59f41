import Mathlib.Data.List.Nodup
import Mathlib.Data.List.Range
import Mathlib.Data.List.Perm.Subperm
import Verif.Proofs.TextPlain
import Verif.Spec.Text

/-! # Normalization -/

set_option autoImplicit false

namespace Bnf
open Spec

/-! ## Fresh names -/

theorem decimal_inj {m n : Nat} (h : decimal m = decimal n) : m = n := by
  have h1 := Nat.ofDigitChars_ten_toDigits (n := m)
  have h2 := Nat.ofDigitChars_ten_toDigits (n := n)
  unfold decimal at h
  rw [← h1, ← h2, h]

theorem anonName_inj {m n : Nat} (h : anonName m = anonName n) : m = n := by
  unfold anonName at h
  exact decimal_inj (List.append_cancel_left h)

theorem freshLoop_none {used : List Str} : ∀ {n c}, freshLoop used n c = none → ∀ i, i < n → anonName (c + i) ∈ used := by
  intro n
  induction n with
  | zero => intro c _ i hi; omega
  | succ n ih =>
    intro c h i hi
    simp only [freshLoop] at h
    split at h
    · rename_i hm
      cases i with
      | zero => exact hm
      | succ i =>
        have := ih h i (by omega)
        rwa [show c + (i + 1) = c + 1 + i by omega]
    · cases h

theorem freshLoop_some {used : List Str} : ∀ {n c x c'}, freshLoop used n c = some (x, c') →
    x ∉ used ∧ ∃ k, x = anonName k := by
  intro n
  induction n with
  | zero => intro c x c' h; cases h
  | succ n ih =>
    intro c x c' h
    simp only [freshLoop] at h
    split at h
    · exact ih h
    · rename_i hm
      injection h with h
      injection h with h1 h2
      subst h1
      exact ⟨hm, _, rfl⟩

/-- One of the first `used.length + 1` candidates is free. -/
theorem freshLoop_total (used : List Str) (c : Nat) : freshLoop used (used.length + 1) c ≠ none := by
  intro h
  have hm := freshLoop_none h
  have hnd : ((List.range (used.length + 1)).map fun i => anonName (c + i)).Nodup := by
    refine List.Nodup.map ?_ List.nodup_range
    intro a b hab
    have := anonName_inj hab
    omega
  have hsub : ((List.range (used.length + 1)).map fun i => anonName (c + i)) ⊆ used := by
    intro x hx
    obtain ⟨i, hi, rfl⟩ := List.mem_map.mp hx
    exact hm i (List.mem_range.mp hi)
  have := (hnd.subperm hsub).length_le
  simp at this
  omega

theorem freshAnonName_total (st : NormState) : ∃ x st', freshAnonName st = some (x, st') := by
  unfold freshAnonName
  cases h : freshLoop st.used (st.used.length + 1) st.counter with
  | none => exact absurd h (freshLoop_total _ _)
  | some p => exact ⟨p.1, _, rfl⟩

theorem freshAnonName_some {st st' : NormState} {x} (h : freshAnonName st = some (x, st')) :
    x ∉ st.used ∧ (∃ k, x = anonName k) ∧ st'.used = x :: st.used ∧ st'.anon = st.anon := by
  unfold freshAnonName at h
  split at h
  · cases h
  · rename_i nm c h0
    injection h with h
    injection h with h1 h2
    subst h1 h2
    obtain ⟨h1, h2⟩ := freshLoop_some h0
    exact ⟨h1, h2, rfl, rfl⟩

/-! ## Totality -/

mutual

theorem lowerTerm_total : ∀ (t : ParsedTerm) (st : NormState), ∃ t' st', lowerTerm t st = some (t', st')
  | .simple t, st => ⟨t, st, by simp [lowerTerm]⟩
  | .group as, st => by
    obtain ⟨x, st1, h1⟩ := freshAnonName_total st
    obtain ⟨rhs, st2, h2⟩ := lowerAlts_total as st1
    simp [lowerTerm, h1, h2]
  | .optional as, st => by
    obtain ⟨x, st1, h1⟩ := freshAnonName_total st
    obtain ⟨rhs, st2, h2⟩ := lowerAlts_total as st1
    simp [lowerTerm, h1, h2]

theorem lowerTerms_total : ∀ (ts : List ParsedTerm) (st : NormState), ∃ ts' st', lowerTerms ts st = some (ts', st')
  | [], st => ⟨[], st, by simp [lowerTerms]⟩
  | t :: ts, st => by
    obtain ⟨t', st1, h1⟩ := lowerTerm_total t st
    obtain ⟨ts', st2, h2⟩ := lowerTerms_total ts st1
    simp [lowerTerms, h1, h2]

theorem lowerAlts_total : ∀ (as : List (List ParsedTerm)) (st : NormState), ∃ as' st', lowerAlts as st = some (as', st')
  | [], st => ⟨[], st, by simp [lowerAlts]⟩
  | e :: es, st => by
    obtain ⟨t', st1, h1⟩ := lowerTerms_total e st
    obtain ⟨ts', st2, h2⟩ := lowerAlts_total es st1
    simp [lowerAlts, h1, h2]

end

theorem lowerProds_total (ps : ParsedGrammar) (st : NormState) : ∃ ps' st', lowerProds ps st = some (ps', st') := by
  induction ps generalizing st with
  | nil => exact ⟨[], st, rfl⟩
  | cons p ps ih =>
    obtain ⟨rhs, st1, h1⟩ := lowerAlts_total p.rhs st
    obtain ⟨ps', st2, h2⟩ := ih st1
    simp [lowerProds, h1, h2]

theorem normalize_total (g : ParsedGrammar) : ∃ g', normalizeParsedGrammar g = some g' := by
  obtain ⟨ps, st, h⟩ := lowerProds_total g ⟨g.map (·.lhs), 0, []⟩
  simp [normalizeParsedGrammar, h]

/-! ## What lowering produces -/

/-- The productions `new` were added between `st` and `st'`. -/
structure Lowered (st st' : NormState) (new : List Production) : Prop where
  anon : st'.anon = st.anon ++ new
  used : ∀ x, x ∈ st'.used ↔ x ∈ st.used ∨ Term.nonterminal x ∈ new.map (·.lhs)
  nodup : (new.map (·.lhs)).Nodup
  fresh : ∀ p ∈ new, ∃ x k, p.lhs = .nonterminal x ∧ x ∉ st.used ∧ x = anonName k

theorem Lowered.refl (st : NormState) : Lowered st st [] := ⟨by simp, by simp, by simp, by simp⟩

theorem Lowered.trans {st st1 st2 n1 n2} (h1 : Lowered st st1 n1) (h2 : Lowered st1 st2 n2) :
    Lowered st st2 (n1 ++ n2) where
  anon := by rw [h2.anon, h1.anon, List.append_assoc]
  used := by intro x; rw [h2.used, h1.used]; simp only [List.map_append, List.mem_append]; tauto
  nodup := by
    rw [List.map_append, List.nodup_append]
    refine ⟨h1.nodup, h2.nodup, ?_⟩
    rintro a ha b hb rfl
    obtain ⟨p, hp, rfl⟩ := List.mem_map.mp hb
    obtain ⟨x, k, hx, hu, _⟩ := h2.fresh p hp
    rw [hx] at ha
    exact hu ((h1.used x).mpr (.inr ha))
  fresh := by
    intro p hp
    rcases List.mem_append.mp hp with hp | hp
    · exact h1.fresh p hp
    · obtain ⟨x, k, hx, hu, hk⟩ := h2.fresh p hp
      exact ⟨x, k, hx, fun h => hu ((h1.used x).mpr (.inl h)), hk⟩

mutual

/-- `t'` stands for `t`, given the definitions `D` of generated names. -/
def LowT (D : Str → List Expression → Prop) : ParsedTerm → Term → Prop
  | .simple t, t' => t' = t
  | .group as, t' => ∃ x rhs, t' = .nonterminal x ∧ D x (if rhs.isEmpty then [emptyAlt] else rhs) ∧ LowA D as rhs
  | .optional as, t' => ∃ x rhs, t' = .nonterminal x ∧ D x (rhs ++ [emptyAlt]) ∧ LowA D as rhs

def LowTs (D : Str → List Expression → Prop) : List ParsedTerm → List Term → Prop
  | [], ts' => ts' = []
  | t :: ts, l => ∃ t' ts', l = t' :: ts' ∧ LowT D t t' ∧ LowTs D ts ts'

def LowA (D : Str → List Expression → Prop) : List (List ParsedTerm) → List Expression → Prop
  | [], es' => es' = []
  | e :: es, l => ∃ e' es', l = e' :: es' ∧ LowTs D e e'.terms ∧ LowA D es es'

end

mutual

theorem LowT.mono {D D' : Str → List Expression → Prop} (h : ∀ x r, D x r → D' x r) :
    ∀ {t : ParsedTerm} {t'}, LowT D t t' → LowT D' t t'
  | .simple t, t', hl => by simpa [LowT] using hl
  | .group as, t', hl => by
    simp only [LowT] at hl ⊢
    obtain ⟨x, rhs, h1, h2, h3⟩ := hl
    exact ⟨x, rhs, h1, h _ _ h2, LowA.mono h h3⟩
  | .optional as, t', hl => by
    simp only [LowT] at hl ⊢
    obtain ⟨x, rhs, h1, h2, h3⟩ := hl
    exact ⟨x, rhs, h1, h _ _ h2, LowA.mono h h3⟩

theorem LowTs.mono {D D' : Str → List Expression → Prop} (h : ∀ x r, D x r → D' x r) :
    ∀ {ts : List ParsedTerm} {ts'}, LowTs D ts ts' → LowTs D' ts ts'
  | [], ts', hl => by simpa [LowTs] using hl
  | t :: ts, l, hl => by
    simp only [LowTs] at hl ⊢
    obtain ⟨t', ts', h1, h2, h3⟩ := hl
    exact ⟨t', ts', h1, LowT.mono h h2, LowTs.mono h h3⟩

theorem LowA.mono {D D' : Str → List Expression → Prop} (h : ∀ x r, D x r → D' x r) :
    ∀ {as : List (List ParsedTerm)} {as'}, LowA D as as' → LowA D' as as'
  | [], ts', hl => by simpa [LowA] using hl
  | t :: ts, l, hl => by
    simp only [LowA] at hl ⊢
    obtain ⟨t', ts', h1, h2, h3⟩ := hl
    exact ⟨t', ts', h1, LowTs.mono h h2, LowA.mono h h3⟩

end

/-- Definitions given by a list of productions. -/
def DefIn (ps : List Production) (x : Str) (rhs : List Expression) : Prop := (⟨.nonterminal x, rhs⟩ : Production) ∈ ps

theorem DefIn.left {a b : List Production} {x r} (h : DefIn a x r) : DefIn (a ++ b) x r := List.mem_append_left _ h
theorem DefIn.right {a b : List Production} {x r} (h : DefIn b x r) : DefIn (a ++ b) x r := List.mem_append_right _ h

/-- Every production in `new` defines a group or an optional inside `i`. -/
def Origin (D : Str → List Expression → Prop) (new : List Production) (i : Item) : Prop :=
  ∀ p ∈ new, ∃ as rhs, LowA D as rhs ∧
    (Within (.term (.group as)) i ∧ p.rhs = (if rhs.isEmpty then [emptyAlt] else rhs) ∨
     Within (.term (.optional as)) i ∧ p.rhs = rhs ++ [emptyAlt])

theorem Origin.mono {D D' : Str → List Expression → Prop} (h : ∀ x r, D x r → D' x r) {new i j}
    (hw : ∀ k, Within k i → Within k j) (ho : Origin D new i) : Origin D' new j := by
  intro p hp
  obtain ⟨as, rhs, h1, h2⟩ := ho p hp
  exact ⟨as, rhs, h1.mono h, h2.imp (fun h => ⟨hw _ h.1, h.2⟩) (fun h => ⟨hw _ h.1, h.2⟩)⟩

theorem Origin.append {D : Str → List Expression → Prop} {n1 n2 i} (h1 : Origin D n1 i) (h2 : Origin D n2 i) :
    Origin D (n1 ++ n2) i := by
  intro p hp
  rcases List.mem_append.mp hp with hp | hp
  · exact h1 p hp
  · exact h2 p hp

theorem Origin.nil {D : Str → List Expression → Prop} {i} : Origin D [] i := by
  intro p hp; cases hp

theorem Spec.Within.cons_head {i t} {ts : List ParsedTerm} (h : Within i (.term t)) : Within i (.terms (t :: ts)) :=
  .terms (List.mem_cons_self ..) h

theorem within_cons_tail {ts : List ParsedTerm} {t} {as rhs} {p : Production}
    (h : Within (.term (.group as)) (.terms ts) ∧ p.rhs = (if rhs.isEmpty then [emptyAlt] else rhs) ∨
     Within (.term (.optional as)) (.terms ts) ∧ p.rhs = rhs ++ [emptyAlt]) :
    Within (.term (.group as)) (.terms (t :: ts)) ∧ p.rhs = (if rhs.isEmpty then [emptyAlt] else rhs) ∨
     Within (.term (.optional as)) (.terms (t :: ts)) ∧ p.rhs = rhs ++ [emptyAlt] := by
  have key : ∀ u, Within (.term u) (.terms ts) → Within (.term u) (.terms (t :: ts)) := by
    intro u hu
    cases hu with
    | terms hm hw => exact .terms (List.mem_cons_of_mem _ hm) hw
  exact h.imp (fun h => ⟨key _ h.1, h.2⟩) (fun h => ⟨key _ h.1, h.2⟩)

theorem within_alts_tail {es : List (List ParsedTerm)} {e} {as rhs} {p : Production}
    (h : Within (.term (.group as)) (.alts es) ∧ p.rhs = (if rhs.isEmpty then [emptyAlt] else rhs) ∨
     Within (.term (.optional as)) (.alts es) ∧ p.rhs = rhs ++ [emptyAlt]) :
    Within (.term (.group as)) (.alts (e :: es)) ∧ p.rhs = (if rhs.isEmpty then [emptyAlt] else rhs) ∨
     Within (.term (.optional as)) (.alts (e :: es)) ∧ p.rhs = rhs ++ [emptyAlt] := by
  have key : ∀ u, Within (.term u) (.alts es) → Within (.term u) (.alts (e :: es)) := by
    intro u hu
    cases hu with
    | alts hm hw => exact .alts (List.mem_cons_of_mem _ hm) hw
  exact h.imp (fun h => ⟨key _ h.1, h.2⟩) (fun h => ⟨key _ h.1, h.2⟩)

theorem Origin.terms_tail {D : Str → List Expression → Prop} {new t} {ts : List ParsedTerm} (h : Origin D new (.terms ts)) :
    Origin D new (.terms (t :: ts)) := by
  intro p hp
  obtain ⟨as, rhs, h1, h2⟩ := h p hp
  exact ⟨as, rhs, h1, within_cons_tail h2⟩

theorem Origin.alts_tail {D : Str → List Expression → Prop} {new e} {es : List (List ParsedTerm)}
    (h : Origin D new (.alts es)) : Origin D new (.alts (e :: es)) := by
  intro p hp
  obtain ⟨as, rhs, h1, h2⟩ := h p hp
  exact ⟨as, rhs, h1, within_alts_tail h2⟩

theorem lowered_push {st st1 st2 : NormState} {x new p} (hf : freshAnonName st = some (x, st1)) (hl : Lowered st1 st2 new)
    (hp : p.lhs = .nonterminal x) : Lowered st { st2 with anon := st2.anon ++ [p] } (new ++ [p]) := by
  obtain ⟨h1, ⟨k, hk⟩, h2, h3⟩ := freshAnonName_some hf
  refine ⟨?_, ?_, ?_, ?_⟩
  · simp only; rw [hl.anon, h3, List.append_assoc]
  · intro y
    simp only
    rw [hl.used, h2]
    simp only [List.map_append, List.mem_append, List.map_cons, List.map_nil, List.mem_cons, hp,
      Term.nonterminal.injEq]
    tauto
  · rw [List.map_append, List.nodup_append]
    refine ⟨hl.nodup, by simp, ?_⟩
    rintro a ha b hb rfl
    simp only [List.map_cons, List.map_nil, List.mem_singleton] at hb
    subst hb
    obtain ⟨q, hq, he⟩ := List.mem_map.mp ha
    obtain ⟨y, _, hy, hu, _⟩ := hl.fresh q hq
    rw [hy, hp] at he
    injection he with he
    subst he
    exact hu (by rw [h2]; simp)
  · intro q hq
    rcases List.mem_append.mp hq with hq | hq
    · obtain ⟨y, k', hy, hu, hk'⟩ := hl.fresh q hq
      exact ⟨y, k', hy, fun h => hu (by rw [h2]; exact List.mem_cons_of_mem _ h), hk'⟩
    · rcases List.mem_singleton.mp hq with rfl
      exact ⟨x, k, hp, h1, hk⟩

mutual

theorem lowerTerm_spec : ∀ {t : ParsedTerm} {st t' st'}, lowerTerm t st = some (t', st') →
    ∃ new, Lowered st st' new ∧ LowT (DefIn new) t t' ∧ Origin (DefIn new) new (.term t)
  | .simple t, st, t', st', h => by
    simp only [lowerTerm, Option.some.injEq, Prod.mk.injEq] at h
    obtain ⟨rfl, rfl⟩ := h
    exact ⟨[], .refl _, by simp [LowT], .nil⟩
  | .group as, st, t', st', h => by
    simp only [lowerTerm] at h
    split at h
    · cases h
    · rename_i x st1 hf
      split at h
      · cases h
      · rename_i rhs st2 ha
        simp only [Option.some.injEq, Prod.mk.injEq] at h
        obtain ⟨rfl, rfl⟩ := h
        obtain ⟨new, h1, h2, ho⟩ := lowerAlts_spec ha
        refine ⟨_, lowered_push (x := x) hf h1 rfl, ?_, (ho.mono (fun _ _ => DefIn.left) fun _ => .group).append ?_⟩
        · simp only [LowT]
          exact ⟨x, rhs, rfl, by simp [DefIn], h2.mono fun _ _ => DefIn.left⟩
        · intro p hp
          rcases List.mem_singleton.mp hp with rfl
          exact ⟨as, rhs, h2.mono fun _ _ => DefIn.left, .inl ⟨.refl, rfl⟩⟩
  | .optional as, st, t', st', h => by
    simp only [lowerTerm] at h
    split at h
    · cases h
    · rename_i x st1 hf
      split at h
      · cases h
      · rename_i rhs st2 ha
        simp only [Option.some.injEq, Prod.mk.injEq] at h
        obtain ⟨rfl, rfl⟩ := h
        obtain ⟨new, h1, h2, ho⟩ := lowerAlts_spec ha
        refine ⟨_, lowered_push (x := x) hf h1 rfl, ?_, (ho.mono (fun _ _ => DefIn.left) fun _ => .optional).append ?_⟩
        · simp only [LowT]
          exact ⟨x, rhs, rfl, by simp [DefIn], h2.mono fun _ _ => DefIn.left⟩
        · intro p hp
          rcases List.mem_singleton.mp hp with rfl
          exact ⟨as, rhs, h2.mono fun _ _ => DefIn.left, .inr ⟨.refl, rfl⟩⟩

theorem lowerTerms_spec : ∀ {ts : List ParsedTerm} {st ts' st'}, lowerTerms ts st = some (ts', st') →
    ∃ new, Lowered st st' new ∧ LowTs (DefIn new) ts ts' ∧ Origin (DefIn new) new (.terms ts)
  | [], st, ts', st', h => by
    simp only [lowerTerms, Option.some.injEq, Prod.mk.injEq] at h
    obtain ⟨rfl, rfl⟩ := h
    exact ⟨[], .refl _, by simp [LowTs], .nil⟩
  | t :: ts, st, ts', st', h => by
    simp only [lowerTerms] at h
    split at h
    · cases h
    · rename_i t1 st1 h1
      split at h
      · cases h
      · rename_i ts1 st2 h2
        simp only [Option.some.injEq, Prod.mk.injEq] at h
        obtain ⟨rfl, rfl⟩ := h
        obtain ⟨n1, h3, h4, ho1⟩ := lowerTerm_spec h1
        obtain ⟨n2, h5, h6, ho2⟩ := lowerTerms_spec h2
        refine ⟨_, h3.trans h5, ?_, (ho1.mono (fun _ _ => DefIn.left) fun _ => .terms (List.mem_cons_self ..)).append
          (ho2.mono (fun _ _ => DefIn.right) fun _ h => h).terms_tail⟩
        simp only [LowTs]
        exact ⟨_, _, rfl, h4.mono fun _ _ => DefIn.left, h6.mono fun _ _ => DefIn.right⟩

theorem lowerAlts_spec : ∀ {as : List (List ParsedTerm)} {st as' st'}, lowerAlts as st = some (as', st') →
    ∃ new, Lowered st st' new ∧ LowA (DefIn new) as as' ∧ Origin (DefIn new) new (.alts as)
  | [], st, ts', st', h => by
    simp only [lowerAlts, Option.some.injEq, Prod.mk.injEq] at h
    obtain ⟨rfl, rfl⟩ := h
    exact ⟨[], .refl _, by simp [LowA], .nil⟩
  | t :: ts, st, ts', st', h => by
    simp only [lowerAlts] at h
    split at h
    · cases h
    · rename_i t1 st1 h1
      split at h
      · cases h
      · rename_i ts1 st2 h2
        simp only [Option.some.injEq, Prod.mk.injEq] at h
        obtain ⟨rfl, rfl⟩ := h
        obtain ⟨n1, h3, h4, ho1⟩ := lowerTerms_spec h1
        obtain ⟨n2, h5, h6, ho2⟩ := lowerAlts_spec h2
        refine ⟨_, h3.trans h5, ?_, (ho1.mono (fun _ _ => DefIn.left) fun _ => .alts (List.mem_cons_self ..)).append
          (ho2.mono (fun _ _ => DefIn.right) fun _ h => h).alts_tail⟩
        simp only [LowA]
        exact ⟨_, _, rfl, h4.mono fun _ _ => DefIn.left, h6.mono fun _ _ => DefIn.right⟩

end

/-- The lowered production of a parsed production. -/
def LowP (D : Str → List Expression → Prop) (p : ParsedProduction) (p' : Production) : Prop :=
  p'.lhs = .nonterminal p.lhs ∧ LowA D p.rhs p'.rhs

theorem lowerProds_spec {ps : ParsedGrammar} : ∀ {st ps' st'}, lowerProds ps st = some (ps', st') →
    ∃ new, Lowered st st' new ∧ List.Forall₂ (LowP (DefIn new)) ps ps' ∧
      ∀ p ∈ new, ∃ q ∈ ps, Origin (DefIn new) [p] (.alts q.rhs) := by
  induction ps with
  | nil =>
    intro st ps' st' h
    simp only [lowerProds, Option.some.injEq, Prod.mk.injEq] at h
    obtain ⟨rfl, rfl⟩ := h
    exact ⟨[], .refl _, .nil, by simp⟩
  | cons p ps ih =>
    intro st ps' st' h
    simp only [lowerProds] at h
    split at h
    · cases h
    · rename_i t1 st1 h1
      split at h
      · cases h
      · rename_i ts1 st2 h2
        simp only [Option.some.injEq, Prod.mk.injEq] at h
        obtain ⟨rfl, rfl⟩ := h
        obtain ⟨n1, h3, h4, ho1⟩ := lowerAlts_spec h1
        obtain ⟨n2, h5, h6, ho2⟩ := ih h2
        refine ⟨_, h3.trans h5, .cons ⟨rfl, h4.mono fun _ _ => DefIn.left⟩ ?_, ?_⟩
        rotate_left
        · intro q hq
          rcases List.mem_append.mp hq with hq | hq
          · refine ⟨p, List.mem_cons_self .., ?_⟩
            intro p' hp'
            rcases List.mem_singleton.mp hp' with rfl
            exact ho1.mono (fun _ _ => DefIn.left) (fun _ h => h) _ hq
          · obtain ⟨q', hq', ho⟩ := ho2 q hq
            exact ⟨q', List.mem_cons_of_mem _ hq', ho.mono (fun _ _ => DefIn.right) fun _ h => h⟩
        have : ∀ {l l'}, List.Forall₂ (LowP (DefIn n2)) l l' → List.Forall₂ (LowP (DefIn (n1 ++ n2))) l l' := by
          intro l l' h
          induction h with
          | nil => exact .nil
          | cons a _ ih => exact .cons ⟨a.1, a.2.mono fun _ _ => DefIn.right⟩ ih
        exact this h6

/-- What normalization produces. -/
theorem normalize_spec {g : ParsedGrammar} {g'} (h : normalizeParsedGrammar g = some g') : ∃ user anon,
    g'.productions = user ++ anon ∧ List.Forall₂ (LowP (DefIn anon)) g user ∧ (anon.map (·.lhs)).Nodup ∧
    (∀ p ∈ anon, ∃ x k, p.lhs = .nonterminal x ∧ x ∉ g.map (·.lhs) ∧ x = anonName k) ∧
    ∀ p ∈ anon, ∃ q ∈ g, Origin (DefIn anon) [p] (.alts q.rhs) := by
  unfold normalizeParsedGrammar at h
  split at h
  · cases h
  · rename_i out st h0
    injection h with h
    subst h
    obtain ⟨new, h1, h2, h3⟩ := lowerProds_spec h0
    have ha := h1.anon
    simp only [List.nil_append] at ha
    exact ⟨out, st.anon, rfl, by rw [ha]; exact h2, by rw [ha]; exact h1.nodup, by rw [ha]; exact h1.fresh,
      by rw [ha]; exact h3⟩

end Bnf
