import Verif.Spec.PropertyTests
import Verif.Proofs.Display
import Verif.Proofs.Mermaid

/-! # Lemmas about the checks of Mermaid texts in `tests/parse_input.rs` -/

set_option autoImplicit false

namespace Bnf
open Spec

/-! ## Lines -/

theorem linesFrom_line : ∀ (l cur rest : Str), '\n' ∉ l → linesFrom cur (l ++ '\n' :: rest) = dropReturn (cur ++ l) :: linesFrom [] rest
  | [], cur, rest, _ => by simp [linesFrom]
  | c :: l, cur, rest, h => by
    simp only [List.mem_cons, not_or] at h
    have := linesFrom_line l (cur ++ [c]) rest h.2
    simp only [List.cons_append]
    rw [linesFrom, if_neg (fun hc => h.1 hc.symm), this]
    simp

theorem strLines_line {l rest : Str} (h : '\n' ∉ l) : strLines (l ++ '\n' :: rest) = dropReturn l :: strLines rest :=
  linesFrom_line l [] rest h

theorem strLines_flatMap {α : Type} (f : α → Str) : ∀ (E : List α), (∀ e ∈ E, '\n' ∉ f e ∧ (f e).getLast? ≠ some '\r') →
    strLines (E.flatMap fun e => f e ++ ['\n']) = E.map f
  | [], _ => rfl
  | e :: E, h => by
    have he := h e (by simp)
    rw [List.flatMap_cons, List.append_assoc]
    simp only [List.cons_append, List.nil_append]
    rw [strLines_line he.1, strLines_flatMap f E fun e he => h e (by simp [he])]
    simp [dropReturn, he.2]

/-! ## Splitting -/

theorem splitPair_ne_nil (a b : Char) : ∀ s, splitPair a b s ≠ []
  | [] => by simp [splitPair]
  | [c] => by simp [splitPair]
  | c :: d :: s => by
    rw [splitPair]
    split
    · simp
    · split <;> simp

theorem splitPair_none {a b : Char} : ∀ {s : Str}, a ∉ s → splitPair a b s = [s]
  | [], _ => rfl
  | [c], _ => rfl
  | c :: d :: s, h => by
    simp only [List.mem_cons, not_or] at h
    rw [splitPair, if_neg (fun hc => h.1 hc.1.symm), splitPair_none (by simp [h])]

theorem splitPair_at {a b : Char} : ∀ {s r : Str}, a ∉ s → splitPair a b (s ++ a :: b :: r) = s :: splitPair a b r
  | [], r, _ => by simp [splitPair]
  | [c], r, h => by
    simp only [List.mem_cons, List.not_mem_nil, or_false] at h
    simp only [List.cons_append, List.nil_append]
    rw [splitPair, if_neg (fun hc => h hc.1.symm), splitPair, if_pos ⟨rfl, rfl⟩]
  | c :: d :: s, r, h => by
    simp only [List.mem_cons, not_or] at h
    simp only [List.cons_append]
    rw [splitPair, if_neg (fun hc => h.1 hc.1.symm)]
    have := splitPair_at (a := a) (b := b) (s := d :: s) (r := r) (by simp [h])
    simp only [List.cons_append] at this
    rw [this]

/-! ## Edges -/

mutual
theorem treeEdges_eq : (n : ParseTreeNode) → 1 + treeEdges n = nodeCount n
  | .terminal _ => by simp [treeEdges, nodeCount]
  | .nonterminal _ kids => by rw [treeEdges, nodeCount, forestEdges_eq kids]
theorem forestEdges_eq : (ns : List ParseTreeNode) → ns.length + forestEdges ns = nodesCount ns
  | [] => by simp [forestEdges, nodesCount]
  | n :: ns => by
    have h1 := treeEdges_eq n
    have h2 := forestEdges_eq ns
    rw [forestEdges, nodesCount, List.length_cons]
    omega
end

theorem toString_digits (n : Nat) : ∀ c ∈ (toString n).toList, c.isDigit = true := by
  intro c hc
  have : (toString n).toList = Nat.toDigits 10 n := by simp [toString, Nat.repr]
  rw [this] at hc
  exact Nat.isDigit_of_mem_toDigits (by omega) (by omega) hc

theorem not_mem_toString {c : Char} (h : c.isDigit = false) (n : Nat) : c ∉ (toString n).toList := by
  intro hc
  rw [toString_digits n c hc] at h
  cases h

/-- A label the test accepts. -/
def SafeLabel (l : Str) : Prop := ∀ c ∈ rawSpecials, c ∉ l

/-- A line without its end. -/
def edgeBody (x y : Nat × Str) : Str :=
  (toString x.1).toList ++ (['[', '"'] ++ (x.2 ++ (['"', ']', ' ', '-', '-', '>', ' '] ++ ((toString y.1).toList ++ (['[', '"'] ++ (y.2 ++ ['"', ']']))))))

theorem edgeLine_eq (x y : Nat × Str) : edgeLine x y = edgeBody x y ++ ['\n'] := by
  have h1 : "[\"".toList = ['[', '"'] := by decide
  have h2 : "\"] --> ".toList = ['"', ']', ' ', '-', '-', '>', ' '] := by decide
  have h3 : "\"]\n".toList = ['"', ']', '\n'] := by decide
  unfold edgeLine edgeBody
  rw [h1, h2, h3]
  simp

theorem edgeBody_line {x y : Nat × Str} (hx : SafeLabel x.2) (hy : SafeLabel y.2) :
    '\n' ∉ edgeBody x y ∧ (edgeBody x y).getLast? ≠ some '\r' := by
  constructor
  · have h1 := hx '\n' (by decide)
    have h2 := hy '\n' (by decide)
    have h3 := not_mem_toString (c := '\n') (by decide) x.1
    have h4 := not_mem_toString (c := '\n') (by decide) y.1
    unfold edgeBody
    simp only [List.mem_append, not_or]
    exact ⟨h3, by decide, h1, by decide, h4, by decide, h2, by decide⟩
  · have : (edgeBody x y).getLast? = some ']' := by
      have : edgeBody x y = ((toString x.1).toList ++ (['[', '"'] ++ (x.2 ++ (['"', ']', ' ', '-', '-', '>', ' '] ++ ((toString y.1).toList ++
          (['[', '"'] ++ (y.2 ++ ['"']))))))) ++ [']'] := by simp [edgeBody]
      rw [this, List.getLast?_concat]
    rw [this]; decide

theorem edgeBody_arrow (x y : Nat × Str) : ['-', '-', '>'] <:+: edgeBody x y := by
  refine ⟨(toString x.1).toList ++ ['[', '"'] ++ x.2 ++ ['"', ']', ' '], ' ' :: ((toString y.1).toList ++ (['[', '"'] ++ (y.2 ++ ['"', ']']))), ?_⟩
  unfold edgeBody
  simp

theorem edgeBody_quotes {x y : Nat × Str} (hx : SafeLabel x.2) (hy : SafeLabel y.2) : (edgeBody x y).count '"' = 4 := by
  have h1 := List.count_eq_zero.2 (hx '"' (by decide))
  have h2 := List.count_eq_zero.2 (hy '"' (by decide))
  have h3 := List.count_eq_zero.2 (not_mem_toString (c := '"') (by decide) x.1)
  have h4 := List.count_eq_zero.2 (not_mem_toString (c := '"') (by decide) y.1)
  unfold edgeBody
  simp only [List.count_append, h1, h2, h3, h4]
  decide

/-- What the segments look like. -/
def GoodSegment (p : Str) : Prop := '"' ∉ p ∨ ∃ l r, p = l ++ '"' :: ']' :: r ∧ '"' ∉ l ∧ SafeLabel l

theorem goodSegment_append {p q : Str} (h : GoodSegment p) (hq : '"' ∉ q) : GoodSegment (p ++ q) := by
  rcases h with h | ⟨l, r, rfl, h1, h2⟩
  · exact .inl (by simp [h, hq])
  · exact .inr ⟨l, r ++ q, by simp, h1, h2⟩

theorem segments_good : ∀ (E : List ((Nat × Str) × (Nat × Str))) (q : Str), (∀ e ∈ E, SafeLabel e.1.2 ∧ SafeLabel e.2.2) → '[' ∉ q → GoodSegment q →
    ∀ p ∈ splitPair '[' '"' (q ++ E.flatMap fun e => edgeBody e.1 e.2 ++ ['\n']), GoodSegment p
  | [], q, _, hb, hq, p, hp => by
    simp only [List.flatMap_nil, List.append_nil, splitPair_none hb, List.mem_singleton] at hp
    subst hp; exact hq
  | (x, y) :: E, q, hE, hb, hq, p, hp => by
    have ⟨hx, hy⟩ := hE (x, y) (by simp)
    have hbr : ∀ n : Nat, '[' ∉ (toString n).toList := not_mem_toString (by decide)
    have hqu : ∀ n : Nat, '"' ∉ (toString n).toList := not_mem_toString (by decide)
    have e : q ++ List.flatMap (fun e => edgeBody e.1 e.2 ++ ['\n']) ((x, y) :: E) =
        (q ++ (toString x.1).toList) ++ '[' :: '"' :: ((x.2 ++ (['"', ']', ' ', '-', '-', '>', ' '] ++ (toString y.1).toList)) ++
          '[' :: '"' :: ((y.2 ++ ['"', ']', '\n']) ++ E.flatMap fun e => edgeBody e.1 e.2 ++ ['\n'])) := by
      simp [edgeBody]
    rw [e, splitPair_at (by simp only [List.mem_append, not_or]; exact ⟨hb, hbr _⟩),
      splitPair_at (by simp only [List.mem_append, not_or]; exact ⟨hx '[' (by decide), by decide, hbr _⟩)] at hp
    rcases List.mem_cons.1 hp with rfl | hp
    · exact goodSegment_append hq (hqu _)
    rcases List.mem_cons.1 hp with rfl | hp
    · exact .inr ⟨x.2, ' ' :: '-' :: '-' :: '>' :: ' ' :: (toString y.1).toList, by simp, hx '"' (by decide), hx⟩
    · exact segments_good E (y.2 ++ ['"', ']', '\n']) (fun e he => hE e (by simp [he]))
        (by simp only [List.mem_append, not_or]; exact ⟨hy '[' (by decide), by decide⟩)
        (.inr ⟨y.2, ['\n'], by simp, hy '"' (by decide), hy⟩) p hp

theorem labelsClean_of_segments {m : Str} (h : ∀ p ∈ splitPair '[' '"' m, GoodSegment p) : LabelsClean m := by
  intro p hp l hl hne
  rcases h p hp with h1 | ⟨l', r, rfl, h1, h2⟩
  · rw [splitPair_none h1] at hl
    simp at hl
    exact absurd hl.symm hne
  · rw [splitPair_at h1] at hl
    simp at hl
    subst hl
    exact h2

/-! ## Reading the codes back -/

theorem unescape_code (c : Char) (h : c ∈ mermaidEscapeChars) (rest : Str) :
    unescapeCodes none (['#'] ++ (toString c.toNat).toList ++ [';'] ++ rest) = c :: unescapeCodes none rest := by
  simp only [mermaidEscapeChars, List.mem_cons, List.not_mem_nil, or_false] at h
  have key : ∀ ds : Str, (∀ d ∈ ds, d.isDigit = true) → ∀ acc, unescapeCodes (some acc) (ds ++ (';' :: rest)) =
      unescapeCodes (some (acc ++ ds)) (';' :: rest) := by
    intro ds
    induction ds with
    | nil => simp
    | cons d ds ih =>
      intro hd acc
      simp only [List.cons_append]
      rw [unescapeCodes, if_pos (hd d (by simp)), ih (fun d h => hd d (by simp [h]))]
      simp
  have hs : unescapeCodes none (['#'] ++ (toString c.toNat).toList ++ [';'] ++ rest) =
      unescapeCodes (some ((toString c.toNat).toList)) (';' :: rest) := by
    have := key (toString c.toNat).toList (toString_digits _) []
    simp only [List.nil_append] at this
    rw [← this]
    simp [unescapeCodes]
  rw [hs, unescapeCodes]
  rcases h with rfl | rfl | rfl | rfl | rfl | rfl | rfl | rfl | rfl | rfl | rfl <;> rfl

theorem unescape_escape : ∀ s : Str, unescapeCodes none (escapeMermaidLabel s) = s
  | [] => rfl
  | c :: s => by
    rw [escape_cons]
    split
    · rename_i h
      rw [unescape_code c h, unescape_escape s]
    · rename_i h
      have : c ≠ '#' := by rintro rfl; exact h (by decide)
      simp only [List.cons_append, List.nil_append]
      rw [unescapeCodes, if_neg this, unescape_escape s]

end Bnf
