import Verif.Proofs.Rejection
import Verif.Props.Extinction

/-!
# Property C104: what a callback does to the chances

As in C78 the random source is ideal.  The callback looks only at the name of the nonterminal and at the text it was expanded to (`ok`); the strategies are
`RandomWalk`, `DepthBounded` and `Weighted` (as long as the sums of the weights fit into a `u32`).
-/

set_option autoImplicit false

namespace Bnf.Props
open Bnf Spec

variable {g : Grammar} {start : Str} {S : Strategy (List Nat × ℚ)} {alts : Nat → Production → List Expression} {ok : Str → Str → Bool}

theorem generateWith_starts (h : Starts g start) (S : Strategy (List Nat × ℚ)) (f : Callback (List Nat × ℚ)) (n : Nat) :
    (fun st => g.generateWith S f n st) = fun st => traverse g S f n start 0 st := by
  obtain ⟨h1, p, ps, h2, h3⟩ := h
  funext st
  simp only [Grammar.generateWith, h1, h2, h3]

/-- C104: at each expansion an alternative is chosen and its nonterminals are expanded; if the callback rejects the text, this is repeated, independently
of the rejected attempt: the probability that a sentence with `P` is returned within `n` nested expansions and repetitions is that of `distKept`. -/
theorem C104_chances (h : Starts g start) (hS : Choosing g S alts) (n : Nat) (P : Str → Bool) :
    HasChance (fun st => g.generateWith S (verdict ok) n st) P ((distKept g alts ok n 0 start).mass P) := by
  obtain ⟨G, hG, hD⟩ := choosing_draws hS
  rw [generateWith_starts h]
  exact chance_of_keptRuns hG hD n 0 start P

/-- C104: so every event has exactly one probability, between 0 and 1, and the probabilities of an event and of its opposite add up to that of returning
at all. -/
theorem C104_well_defined (h : Starts g start) (hS : Choosing g S alts) (P : Str → Bool) :
    ∃ q r a, (∀ q', OverallChance (fun n st => g.generateWith S (verdict ok) n st) P q' ↔ q' = q) ∧ 0 ≤ q ∧ q ≤ 1 ∧
      OverallChance (fun n st => g.generateWith S (verdict ok) n st) (fun s => !P s) r ∧
      OverallChance (fun n st => g.generateWith S (verdict ok) n st) (fun _ => true) a ∧ q + r = a := by
  simp only [generateWith_starts h]
  refine ⟨keptLimit g alts ok 0 start P, _, _, fun q' => ⟨fun hq => ?_, ?_⟩, keptLimit_nonneg 0 start P, keptLimit_le_one 0 start P, overall_kept hS 0 start _, overall_kept hS 0 start _, ?_⟩
  · exact IsLUB.unique hq (overall_kept hS 0 start P)
  · rintro rfl; exact overall_kept hS 0 start P
  · simpa using keptLimit_add (g := g) (alts := alts) (ok := ok) 0 start (fun _ => true) P

/-- C104: for each nonterminal `x` at each depth: let `a e` be the probability that expanding the terms of the alternative `e` gives an accepted text
with `P`, and `r e` that it gives a rejected text; with their averages `A` and `R` over the alternatives, `x` gives a text with `P` with probability `q`
with `q = A + R * q`, which is `A / (1 - R)` if `R < 1`, and 0 if `A` is 0. -/
theorem C104_expansion (hS : Choosing g S alts) {x : Str} {p : Production} (hp : IsFirst g x p) (hc : ¬ NoChoice p) (d : Nat) (P : Str → Bool)
    {a r : Expression → ℝ}
    (ha : ∀ e ∈ alts d p, OverallChance (fun n st => evalTerms (fun nt st => traverse g S (verdict ok) n nt (d + 1) st) e.terms [] st)
      (fun s => P s && ok x s) (a e))
    (hr : ∀ e ∈ alts d p, OverallChance (fun n st => evalTerms (fun nt st => traverse g S (verdict ok) n nt (d + 1) st) e.terms [] st)
      (fun s => !ok x s) (r e)) :
    ∃ q, OverallChance (fun n st => traverse g S (verdict ok) n x d st) P q ∧ q = average a (alts d p) + average r (alts d p) * q ∧
      (average r (alts d p) < 1 → q = average a (alts d p) / (1 - average r (alts d p))) ∧
      (average a (alts d p) = 0 → q = 0) := by
  have hf := isFirst_firstOf hp
  have h1 : average a (alts d p) = ((alts d p).map fun e => termsLimit g alts ok (d + 1) e.terms fun s => P s && ok x s).sum / (alts d p).length := by
    unfold average
    congr 2
    exact List.map_congr_left fun e he => IsLUB.unique (ha e he) (overall_terms hS (d + 1) e.terms _)
  have h2 : average r (alts d p) = ((alts d p).map fun e => termsLimit g alts ok (d + 1) e.terms fun s => !ok x s).sum / (alts d p).length := by
    unfold average
    congr 2
    exact List.map_congr_left fun e he => IsLUB.unique (hr e he) (overall_terms hS (d + 1) e.terms _)
  have h3 := keptLimit_eq (g := g) (alts := alts) (ok := ok) (d := d) hf hc P
  rw [← h1, ← h2] at h3
  refine ⟨_, overall_kept hS d x P, ?_, fun h4 => ?_, fun h4 => ?_⟩
  · rw [mul_comm (average r _)]; exact h3
  · rw [eq_div_iff (by linarith)]
    linarith
  · exact keptLimit_zero hf hc P (h1 ▸ h4)

/-- The callback is given whole sentences only once per attempt: what `start` is expanded to does not lead to `start` again. -/
def NotAgain (g : Grammar) (start : Str) : Prop := ∀ x, Met g start x → ¬ Refers g x start

theorem starts_first (h : Starts g start) (hc : ∀ p, IsFirst g start p → ¬ NoChoice p) : ∃ p, firstOf g start = some p ∧ ¬ Barren p := by
  obtain ⟨_, p, ps, h2, h3⟩ := h
  have : IsFirst g start p := ⟨[], ps, h2, h3, by simp⟩
  exact ⟨p, isFirst_firstOf this, hc p this⟩

theorem overall_plain (h : Starts g start) (hS : Choosing g S alts) (P : Str → Bool) :
    OverallChance (fun n st => g.generateSeededWithStrategy S n st) P (keptLimit g alts allOk 0 start P) := by
  simp only [generate_starts h]
  exact overall_kept (ok := allOk) hS 0 start P

theorem overall_with (h : Starts g start) (hS : Choosing g S alts) (P : Str → Bool) :
    OverallChance (fun n st => g.generateWith S (verdict ok) n st) P (keptLimit g alts ok 0 start P) := by
  simp only [generateWith_starts h]
  exact overall_kept hS 0 start P

/-- C104: a callback that looks at whole sentences gives exactly the distribution of repeated generation without callback until the sentence is good: if
without callback a good sentence with `P` is returned with probability `p` and one that is not good with probability `r < 1`, then with callback a sentence with
`P` is returned with probability `p / (1 - r)`. -/
theorem C104_whole_sentences (h : Starts g start) (hS : Choosing g S alts) (hc : ∀ p, IsFirst g start p → ¬ NoChoice p) (hback : NotAgain g start)
    {good P : Str → Bool} {p r : ℝ} (hp : OverallChance (fun n st => g.generateSeededWithStrategy S n st) (fun s => P s && good s) p)
    (hr : OverallChance (fun n st => g.generateSeededWithStrategy S n st) (fun s => !good s) r) (h1 : r < 1) :
    OverallChance (fun n st => g.generateWith S (verdict (wholeSentences start good)) n st) P (p / (1 - r)) := by
  obtain ⟨p0, hf, hb⟩ := starts_first h hc
  have e1 := IsLUB.unique hp (overall_plain h hS _)
  have e2 := IsLUB.unique hr (overall_plain h hS _)
  have h3 := keptLimit_whole (choosing_rhs hS) (d := 0) (good := good) hf hb hback P
  rw [← e1, ← e2] at h3
  have : p / (1 - r) = keptLimit g alts (wholeSentences start good) 0 start P := by
    rw [div_eq_iff (by linarith)]
    linarith
  rw [this]
  exact overall_with h hS P

theorem overall_true {run : Nat → List Nat × ℚ → GenRes (List Nat × ℚ)} (h : AlmostSurely run)
    {q : ℝ} (hq : OverallChance run (fun _ => true) q) (h1 : q ≤ 1) : q = 1 := by
  apply le_antisymm h1
  by_contra hc
  push Not at hc
  obtain ⟨ε, h2, h3⟩ := exists_rat_btwn (sub_pos.mpr hc)
  obtain ⟨n, r, h4, h5⟩ := h ε (by exact_mod_cast h2)
  have h6 : (r : ℝ) ≤ q := hq.1 ⟨n, r, h4, rfl⟩
  have h7 : (1 : ℝ) - ε ≤ r := by exact_mod_cast h5
  linarith

theorem almostSurely_of_overall {run : Nat → List Nat × ℚ → GenRes (List Nat × ℚ)} (hq : OverallChance run (fun _ => true) 1) : AlmostSurely run := by
  intro ε hε
  have h1 : (1 : ℝ) - ε < 1 := by
    have : (0 : ℝ) < ε := by exact_mod_cast hε
    linarith
  obtain ⟨b, ⟨n, r, h2, rfl⟩, h3⟩ := (lt_isLUB_iff hq).mp h1
  exact ⟨n, r, h2, by exact_mod_cast h3.le⟩

/-- C104: and if generation without callback returns a sentence with probability 1, and a good one with any positive probability, then generation with the
callback returns a (good) sentence with probability 1. -/
theorem C104_ends (h : Starts g start) (hS : Choosing g S alts) (hc : ∀ p, IsFirst g start p → ¬ NoChoice p) (hback : NotAgain g start) {good : Str → Bool}
    (hs : AlmostSurely fun n st => g.generateSeededWithStrategy S n st)
    (hgood : ∃ n q, HasChance (fun st => g.generateSeededWithStrategy S n st) good q ∧ 0 < q) :
    AlmostSurely (fun n st => g.generateWith S (verdict (wholeSentences start good)) n st) ∧
      OverallChance (fun n st => g.generateWith S (verdict (wholeSentences start good)) n st) good 1 := by
  obtain ⟨n, q, h1, h2⟩ := hgood
  have hF : (0 : ℝ) < keptLimit g alts allOk 0 start good :=
    lt_of_lt_of_le (by exact_mod_cast h2 : (0 : ℝ) < q) ((overall_plain h hS good).1 ⟨n, q, h1, rfl⟩)
  have hT := overall_true hs (overall_plain h hS _) (keptLimit_le_one 0 start _)
  have hadd : keptLimit g alts allOk 0 start good + keptLimit g alts allOk 0 start (fun s => !good s) = 1 := by
    rw [← hT]; simpa using keptLimit_add (g := g) (alts := alts) (ok := allOk) 0 start (fun _ => true) good
  have key : ∀ P : Str → Bool, (∀ s, good s = true → P s = true) →
      OverallChance (fun n st => g.generateWith S (verdict (wholeSentences start good)) n st) P 1 := by
    intro P hP
    have h3 := C104_whole_sentences h hS hc hback (good := good) (P := P) (overall_plain h hS _) (overall_plain h hS _) (by linarith)
    have h4 : (fun s => P s && good s) = good := by
      funext s
      cases hg : good s
      · simp
      · simp [hP s hg]
    rw [h4, show 1 - keptLimit g alts allOk 0 start (fun s => !good s) = keptLimit g alts allOk 0 start good by linarith, div_self hF.ne'] at h3
    exact h3
  exact ⟨almostSurely_of_overall (key _ fun _ _ => rfl), key _ fun _ h => h⟩

/-! ## An example -/

/-- `<s> ::= <a> | 'z'`, `<a> ::= 'x' | 'y'`. -/
def gPick : Grammar := ⟨[⟨.nonterminal ['s'], [⟨[.nonterminal ['a']]⟩, ⟨[.terminal ['z']]⟩]⟩, ⟨.nonterminal ['a'], [⟨[.terminal ['x']]⟩, ⟨[.terminal ['y']]⟩]⟩]⟩

theorem gPick_starts : Starts gPick ['s'] := ⟨by decide +kernel, _, _, rfl, rfl⟩

theorem gPick_refers {x y : Str} (h : Refers gPick x y) : y = ['a'] := by
  obtain ⟨p, ⟨b, a, h1, _, _⟩, e, he, hy⟩ := h
  have hp : p ∈ gPick.productions := by rw [h1]; simp
  simp only [gPick, List.mem_cons, List.not_mem_nil, or_false] at hp
  rcases hp with rfl | rfl
  · simp only [List.mem_cons, List.not_mem_nil, or_false] at he
    rcases he with rfl | rfl <;> simp at hy
    exact hy
  · simp only [List.mem_cons, List.not_mem_nil, or_false] at he
    rcases he with rfl | rfl <;> simp at hy

theorem gPick_notAgain : NotAgain gPick ['s'] := fun x _ h => by
  have := gPick_refers h
  simp at this

theorem gPick_choice (p : Production) (h : IsFirst gPick ['s'] p) : ¬ NoChoice p := by
  have := isFirst_firstOf h
  rw [show firstOf gPick ['s'] = some gPick.productions[0] from rfl] at this
  injection this with this
  subst this
  simp [NoChoice, gPick]

theorem gPick_plain (P : Str → Bool) : keptLimit gPick uniformAlts allOk 0 ['s'] P =
    ((((if P ['x'] then 1 else 0) + if P ['y'] then 1 else 0) / 2) + if P ['z'] then 1 else 0) / 2 := by
  rw [keptLimit_allOk (p := gPick.productions[0]) rfl (by decide)]
  have ha : keptLimit gPick uniformAlts allOk 1 ['a'] P = ((if P ['x'] then 1 else 0) + if P ['y'] then 1 else 0) / 2 := by
    rw [keptLimit_allOk (p := gPick.productions[1]) rfl (by decide)]
    simp [uniformAlts, gPick, termsLimit_text]
  simp [uniformAlts, gPick, termsLimit_text, termsLimit_single]
  have := ha
  simp only [gPick] at this
  rw [this]

/-- C104: rejecting `y` as a whole sentence leaves `x` with probability 1/3 (1/4 of 3/4); rejecting it as an expansion of `<a>` leaves `x` with probability 1/2:
only the expansion of `<a>` is repeated, not the choice that led to it. -/
theorem C104_local_witness :
    OverallChance (fun n st => gPick.generateWith (RandomWalk tapeRng) (verdict (wholeSentences ['s'] (· != ['y']))) n st) (· == ['x']) (1 / 3) ∧
    OverallChance (fun n st => gPick.generateWith (RandomWalk tapeRng) (verdict fun nt s => nt != ['a'] || s != ['y']) n st) (· == ['x']) (1 / 2) := by
  constructor
  · have h1 := C104_whole_sentences gPick_starts .randomWalk gPick_choice gPick_notAgain (good := (· != ['y'])) (P := (· == ['x']))
      (overall_plain gPick_starts .randomWalk _) (overall_plain gPick_starts .randomWalk _)
    rw [gPick_plain, gPick_plain] at h1
    have h2 := h1 (by simp; norm_num)
    have h3 : (1 : ℝ) / 3 = 1 / 2 / 2 / (1 - 1 / 2 / 2) := by norm_num
    rw [h3]
    simpa using h2
  · have h1 := overall_with gPick_starts .randomWalk (ok := fun nt s => nt != ['a'] || s != ['y']) (· == ['x'])
    have ha : keptLimit gPick uniformAlts (fun nt s => nt != ['a'] || s != ['y']) 1 ['a'] (· == ['x']) = 1 := by
      have := keptLimit_eq (g := gPick) (alts := uniformAlts) (ok := fun nt s => nt != ['a'] || s != ['y']) (d := 1) (x := ['a'])
        (p := gPick.productions[1]) rfl (by decide) (· == ['x'])
      simp [uniformAlts, gPick, termsLimit_text] at this
      simp only [gPick]
      linarith
    have hs : keptLimit gPick uniformAlts (fun nt s => nt != ['a'] || s != ['y']) 0 ['s'] (· == ['x']) = 1 / 2 := by
      rw [keptLimit_accepted (p := gPick.productions[0]) rfl (by decide) (fun s => by simp)]
      simp only [gPick] at ha
      simp [uniformAlts, gPick, termsLimit_text, termsLimit_single, ha]
    rw [hs] at h1
    exact h1

/-- The hypotheses of `C104_ends` hold: `y` is rejected as a whole sentence, and a sentence that is not `y` is returned with probability 1. -/
example : AlmostSurely fun n st => gPick.generateWith (RandomWalk tapeRng) (verdict (wholeSentences ['s'] (· != ['y']))) n st := by
  refine (C104_ends gPick_starts .randomWalk gPick_choice gPick_notAgain (almostSurely_of_overall ?_) ?_).1
  · have := overall_plain gPick_starts .randomWalk fun _ => true
    rw [gPick_plain] at this
    norm_num at this
    exact this
  · refine ⟨2, _, C78_random_walk gPick_starts 2 _, ?_⟩
    simp [Spec.dist, firstOf, gPick, Barren, uniformAlts, distTerms, Dist.mass]
    norm_num

end Bnf.Props
