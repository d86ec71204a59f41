import Verif.Model.Display
import Verif.Spec.Display
import Mathlib.Data.List.Nodup

/-! # Displaying parse trees -/

set_option autoImplicit false

namespace Bnf
open Spec

/-! ## Drawing -/

/-- The columns before the branch of a child at depth `n + 1`. -/
def columns (set : FormatSet) (idx : Nat) : Nat → Str
  | 0 => []
  | n + 1 => (if set.contains idx then ['│', ' ', ' ', ' '] else [' ', ' ', ' ', ' ']) ++ columns set (idx + 1) n

theorem fmtColumns_eq (set : FormatSet) (isLast : Bool) : ∀ (n idx : Nat), fmtColumns set isLast (n + 1) idx =
    columns set idx n ++ (if isLast then ['└', '─', '─', ' '] else ['├', '─', '─', ' '])
  | 0, idx => by simp [fmtColumns, columns]
  | n + 1, idx => by
    rw [fmtColumns, fmtColumns_eq set isLast n (idx + 1), columns, List.append_assoc]

theorem columns_congr {set set' : FormatSet} : ∀ (n idx : Nat), (∀ i, i < idx + n → (i ∈ set ↔ i ∈ set')) →
    columns set idx n = columns set' idx n
  | 0, idx, _ => rfl
  | n + 1, idx, h => by
    rw [columns, columns, columns_congr n (idx + 1) (fun i hi => h i (by omega))]
    have := h idx (by omega)
    by_cases hm : idx ∈ set
    · simp [hm, this.1 hm]
    · simp [hm, show idx ∉ set' from fun h' => hm (this.2 h')]

theorem columns_snoc (set : FormatSet) : ∀ (n idx : Nat), columns set idx (n + 1) =
    columns set idx n ++ (if set.contains (idx + n) then ['│', ' ', ' ', ' '] else [' ', ' ', ' ', ' '])
  | 0, idx => by simp [columns]
  | n + 1, idx => by
    rw [columns, columns_snoc set n (idx + 1), columns]
    simp only [List.append_assoc]
    congr 4
    rw [show idx + 1 + n = idx + (n + 1) by omega]

theorem fmtRhs_eq : ∀ (kids : List ParseTreeNode), fmtRhs kids = kids.flatMap fun k => " ".toList ++ nodeLabel k
  | [] => rfl
  | .terminal t :: ks => by rw [fmtRhs, fmtRhs_eq ks]; simp [nodeLabel]
  | .nonterminal lhs _ :: ks => by rw [fmtRhs, fmtRhs_eq ks]; simp [nodeLabel]

theorem unlines_append (a b : List Str) : unlines (a ++ b) = unlines a ++ unlines b := by simp [unlines]

theorem map_indent (c first other : Str) (ls : List Str) :
    (indent first other ls).map (c ++ ·) = indent (c ++ first) (c ++ other) ls := by
  cases ls with
  | nil => rfl
  | cons l ls => simp [indent]

theorem mem_insert' {set : FormatSet} {i j : Nat} : i ∈ FormatSet.insert set j ↔ i = j ∨ i ∈ set := by simp [FormatSet.insert]
theorem mem_remove {set : FormatSet} {i j : Nat} : i ∈ FormatSet.remove set j ↔ i ∈ set ∧ i ≠ j := by simp [FormatSet.remove]

mutual
/-- A child at depth `d + 1`. -/
theorem fmtNode_eq : ∀ (n : ParseTreeNode) (set : FormatSet) (d : Nat) (isLast : Bool), (d ∈ set ↔ isLast = false) →
    (fmtNode n set (d + 1) isLast).1 = unlines ((indent (if isLast then "└── ".toList else "├── ".toList)
      (if isLast then "    ".toList else "│   ".toList) (draw n)).map (columns set 0 d ++ ·)) ∧
    ∀ i, i ≤ d → (i ∈ (fmtNode n set (d + 1) isLast).2 ↔ i ∈ set)
  | .terminal t, set, d, isLast, _ => by
    refine ⟨?_, fun i _ => by rw [fmtNode]⟩
    rw [fmtNode]
    simp only [fmtNodePrefix, fmtColumns_eq, draw, indent, unlines]
    cases isLast <;> simp
  | .nonterminal lhs kids, set, d, isLast, hd => by
    obtain ⟨h1, h2⟩ := fmtChildren_eq kids (FormatSet.insert set (d + 1)) (d + 1) (mem_insert'.2 (.inl rfl))
    rw [fmtNode]
    refine ⟨?_, fun i hi => ?_⟩
    · simp only
      rw [h1]
      have hcol : ∀ n, n ≤ d + 1 → columns (FormatSet.insert set (d + 1)) 0 n = columns set 0 n := by
        intro n hn
        exact columns_congr n 0 (fun i hi => by rw [mem_insert']; constructor
                                                · rintro (h | h)
                                                  · omega
                                                  · exact h
                                                · exact .inr)
      rw [hcol (d + 1) (by omega), columns_snoc]
      simp only [fmtNodePrefix, fmtColumns_eq, draw, indent, hcol d (by omega), Nat.zero_add]
      have hc : set.contains d = !isLast := by
        cases isLast
        · simpa using hd
        · simp at hd; simpa using hd
      rw [hc]
      simp only [unlines, List.map_cons, List.flatMap_cons, List.map_map, fmtRhs_eq]
      cases isLast <;> simp [List.flatMap_map, Function.comp_def]
    · simp only
      rw [h2 i (by omega), mem_insert']
      constructor
      · rintro (h | h)
        · omega
        · exact h
      · exact .inr

/-- The children of a node at depth `d`. -/
theorem fmtChildren_eq : ∀ (kids : List ParseTreeNode) (set : FormatSet) (d : Nat), d ∈ set →
    (fmtChildren kids set d).1 = unlines ((drawKids kids).map (columns set 0 d ++ ·)) ∧
    ∀ i, i < d → (i ∈ (fmtChildren kids set d).2 ↔ i ∈ set)
  | [], set, d, _ => by simp [fmtChildren, drawKids, unlines]
  | [k], set, d, h => by
    obtain ⟨h1, h2⟩ := fmtNode_eq k (FormatSet.remove set d) d true (by simp [mem_remove])
    rw [fmtChildren]
    simp only [List.isEmpty_nil, if_true, fmtChildren, List.append_nil, drawKids]
    refine ⟨?_, fun i hi => by rw [h2 i (by omega), mem_remove]; exact ⟨fun h => h.1, fun h => ⟨h, by omega⟩⟩⟩
    rw [h1, columns_congr (set' := set) d 0 (fun i hi => by rw [mem_remove]; exact ⟨fun h => h.1, fun h => ⟨h, by omega⟩⟩)]
    simp
  | k :: k' :: ks, set, d, h => by
    obtain ⟨h1, h2⟩ := fmtNode_eq k set d false (by simp [h])
    obtain ⟨h3, h4⟩ := fmtChildren_eq (k' :: ks) (fmtNode k set (d + 1) false).2 d ((h2 d (by omega)).2 h)
    rw [fmtChildren]
    simp only [List.isEmpty_cons, Bool.false_eq_true, if_false, drawKids]
    refine ⟨?_, fun i hi => by rw [h4 i hi, h2 i (by omega)]⟩
    rw [h1, h3, columns_congr (set' := set) d 0 (fun i hi => h2 i (by omega))]
    simp [unlines_append]
end

theorem display_eq (t : ParseTree) : t.display = unlines (draw (.nonterminal t.lhs t.rhs)) := by
  obtain ⟨h1, _⟩ := fmtChildren_eq t.rhs (FormatSet.insert [] 0) 0 (mem_insert'.2 (.inl rfl))
  rw [ParseTree.display, fmtNode]
  simp only [h1]
  simp [fmtNodePrefix, fmtColumns, draw, unlines, fmtRhs_eq, columns]

theorem indent_length (a b : Str) (ls : List Str) : (indent a b ls).length = ls.length := by
  cases ls <;> simp [indent]

mutual
theorem draw_length : ∀ n : ParseTreeNode, (draw n).length = nodeCount n
  | .terminal _ => by simp [draw, nodeCount]
  | .nonterminal _ kids => by simp [draw, nodeCount, drawKids_length kids]; omega
theorem drawKids_length : ∀ ks : List ParseTreeNode, (drawKids ks).length = nodesCount ks
  | [] => by simp [drawKids, nodesCount]
  | [k] => by simp [drawKids, nodesCount, indent_length, draw_length k]
  | k :: k' :: ks => by
    have := drawKids_length (k' :: ks)
    rw [drawKids, List.length_append, indent_length, draw_length k, this]
    simp [nodesCount]
end

/-! ## The drawing determines the tree -/

theorem draw_ne_nil (n : ParseTreeNode) : draw n ≠ [] := by cases n <;> simp [draw]

/-- Lines that begin a child. -/
def StartsChild (X : List Str) : Prop := ∀ l ls, X = l :: ls → ∃ c r, l = c :: r ∧ (c = '├' ∨ c = '└')

theorem startsChild_drawKids : ∀ ks : List ParseTreeNode, StartsChild (drawKids ks)
  | [] => by intro l ls h; simp [drawKids] at h
  | [k] => by
    intro l ls h
    rw [drawKids] at h
    cases hd : draw k with
    | nil => exact absurd hd (draw_ne_nil k)
    | cons a as =>
      rw [hd] at h
      simp only [indent, List.cons.injEq] at h
      exact ⟨_, _, h.1.symm, .inr rfl⟩
  | k :: k' :: ks => by
    intro l ls h
    rw [drawKids] at h
    cases hd : draw k with
    | nil => exact absurd hd (draw_ne_nil k)
    | cons a as =>
      rw [hd] at h
      simp only [indent, List.cons_append, List.cons.injEq] at h
      exact ⟨_, _, h.1.symm, .inl rfl⟩

theorem block_split {c : Char} {o : Str} (hc : c ≠ '├' ∧ c ≠ '└') : ∀ {A B X Y : List Str}, StartsChild X → StartsChild Y →
    A.map ((c :: o) ++ ·) ++ X = B.map ((c :: o) ++ ·) ++ Y → A = B ∧ X = Y
  | [], [], X, Y, _, _, h => ⟨rfl, by simpa using h⟩
  | [], b :: B, X, Y, hX, _, h => by
    simp at h
    obtain ⟨c', r, h1, h2⟩ := hX _ _ h
    injection h1 with h1
    subst h1
    rcases h2 with h2 | h2
    · exact absurd h2 hc.1
    · exact absurd h2 hc.2
  | a :: A, [], X, Y, _, hY, h => by
    simp at h
    obtain ⟨c', r, h1, h2⟩ := hY _ _ h.symm
    injection h1 with h1
    subst h1
    rcases h2 with h2 | h2
    · exact absurd h2 hc.1
    · exact absurd h2 hc.2
  | a :: A, b :: B, X, Y, hX, hY, h => by
    simp only [List.map_cons, List.cons_append, List.cons.injEq, true_and] at h
    obtain ⟨h1, h2⟩ := block_split hc hX hY h.2
    have := List.append_cancel_left h.1
    exact ⟨by rw [this, h1], h2⟩

theorem split_at_char {c : Char} : ∀ {a b x y : Str}, c ∉ a → c ∉ b → a ++ c :: x = b ++ c :: y → a = b ∧ x = y
  | [], [], _, _, _, _, h => ⟨rfl, by simpa using h⟩
  | [], b :: bs, x, y, _, hb, h => by simp at h; exact absurd h.1 (fun h' => hb (by simp [h']))
  | a :: as, [], x, y, ha, _, h => by simp at h; exact absurd h.1 (fun h' => ha (by simp [h']))
  | a :: as, b :: bs, x, y, ha, hb, h => by
    simp at h ha hb
    obtain ⟨h1, h2⟩ := split_at_char ha.2 hb.2 h.2
    exact ⟨by rw [h.1, h1], h2⟩

mutual
theorem draw_inj : ∀ (a b : ParseTreeNode), CleanNode a → CleanNode b → draw a = draw b → a = b
  | .terminal s, .terminal s', _, _, h => by
    simp [draw] at h; rw [h]
  | .terminal s, .nonterminal lhs kids, _, hb, h => by
    rw [CleanNode] at hb
    obtain ⟨⟨n, rfl, _⟩, _⟩ := hb
    simp [draw, Term.display] at h
  | .nonterminal lhs kids, .terminal s, ha, _, h => by
    rw [CleanNode] at ha
    obtain ⟨⟨n, rfl, _⟩, _⟩ := ha
    simp [draw, Term.display] at h
  | .nonterminal lhs kids, .nonterminal lhs' kids', ha, hb, h => by
    rw [CleanNode] at ha hb
    obtain ⟨⟨n, rfl, _⟩, hk⟩ := ha
    obtain ⟨⟨n', rfl, _⟩, hk'⟩ := hb
    simp only [draw, Term.display, List.cons.injEq] at h
    obtain ⟨h1, h2⟩ := h
    have hkids := drawKids_inj kids kids' hk hk' h2
    subst hkids
    have : n = n' := by simpa using h1
    rw [this]
theorem drawKids_inj : ∀ (as bs : List ParseTreeNode), CleanNodes as → CleanNodes bs → drawKids as = drawKids bs → as = bs
  | [], [], _, _, _ => rfl
  | [], [b], _, _, h => by
    have := congrArg List.length h
    simp [drawKids, indent_length] at this
    exact absurd (List.length_eq_zero_iff.1 this.symm) (draw_ne_nil b)
  | [], b :: b' :: bs, _, _, h => by
    have := congrArg List.length h.symm
    simp [drawKids, indent_length] at this
    exact absurd this.1 (draw_ne_nil b)
  | [a], [], _, _, h => by
    have := congrArg List.length h
    simp [drawKids, indent_length] at this
    exact absurd (this) (draw_ne_nil a)
  | a :: a' :: as, [], _, _, h => by
    have := congrArg List.length h
    simp [drawKids, indent_length] at this
    exact absurd this.1 (draw_ne_nil a)
  | [a], [b], ha, hb, h => by
    rw [CleanNodes] at ha hb
    have h' : draw a = draw b := by
      simp only [drawKids] at h
      cases hda : draw a with
      | nil => exact absurd hda (draw_ne_nil a)
      | cons x xs =>
        cases hdb : draw b with
        | nil => exact absurd hdb (draw_ne_nil b)
        | cons y ys =>
          rw [hda, hdb] at h
          simp only [indent, List.cons.injEq] at h
          have h1 := List.append_cancel_left h.1
          have h2 := (block_split (c := ' ') (o := "   ".toList) (by decide) (X := []) (Y := []) (by intro l ls h; cases h)
            (by intro l ls h; cases h) (A := xs) (B := ys) (by simpa using h.2)).1
          rw [h1, h2]
    rw [draw_inj a b ha.1 hb.1 h']
  | [a], b :: b' :: bs, _, _, h => by
    simp only [drawKids] at h
    cases hda : draw a with
    | nil => exact absurd hda (draw_ne_nil a)
    | cons x xs =>
      cases hdb : draw b with
      | nil => exact absurd hdb (draw_ne_nil b)
      | cons y ys => rw [hda, hdb] at h; simp [indent] at h
  | a :: a' :: as, [b], _, _, h => by
    simp only [drawKids] at h
    cases hda : draw a with
    | nil => exact absurd hda (draw_ne_nil a)
    | cons x xs =>
      cases hdb : draw b with
      | nil => exact absurd hdb (draw_ne_nil b)
      | cons y ys => rw [hda, hdb] at h; simp [indent] at h
  | a :: a' :: as, b :: b' :: bs, ha, hb, h => by
    rw [CleanNodes] at ha hb
    have h' : draw a = draw b ∧ drawKids (a' :: as) = drawKids (b' :: bs) := by
      simp only [drawKids] at h
      cases hda : draw a with
      | nil => exact absurd hda (draw_ne_nil a)
      | cons x xs =>
        cases hdb : draw b with
        | nil => exact absurd hdb (draw_ne_nil b)
        | cons y ys =>
          rw [hda, hdb] at h
          simp only [indent, List.cons_append, List.cons.injEq] at h
          have h1 := List.append_cancel_left h.1
          have h2 := block_split (c := '│') (o := "   ".toList) (by decide) (startsChild_drawKids _)
            (startsChild_drawKids _) (A := xs) (B := ys) (by simpa using h.2)
          exact ⟨by rw [h1, h2.1], h2.2⟩
    rw [draw_inj a b ha.1 hb.1 h'.1, drawKids_inj (a' :: as) (b' :: bs) ha.2 hb.2 h'.2]
end

theorem indent_clean {a b : Str} {ls : List Str} (ha : '\n' ∉ a) (hb : '\n' ∉ b) (h : ∀ l ∈ ls, '\n' ∉ l) :
    ∀ l ∈ indent a b ls, '\n' ∉ l := by
  cases ls with
  | nil => simp [indent]
  | cons x xs =>
    intro l hl
    simp only [indent, List.mem_cons, List.mem_map] at hl
    rcases hl with rfl | ⟨y, hy, rfl⟩
    · simp [ha, h x (by simp)]
    · simp [hb, h y (by simp [hy])]

theorem label_clean {k : ParseTreeNode} (h : CleanNode k) : '\n' ∉ nodeLabel k := by
  cases k with
  | terminal t => rw [CleanNode] at h; simp [nodeLabel, h]
  | nonterminal lhs kids =>
    rw [CleanNode] at h
    obtain ⟨⟨n, rfl, hn⟩, _⟩ := h
    simp [nodeLabel, Term.display, hn]

theorem cleanNodes_mem : ∀ {ks : List ParseTreeNode}, CleanNodes ks → ∀ k ∈ ks, CleanNode k
  | [], _, _, h => by simp at h
  | k :: ks, h, x, hx => by
    rw [CleanNodes] at h
    rcases List.mem_cons.1 hx with rfl | hx
    · exact h.1
    · exact cleanNodes_mem h.2 x hx

mutual
theorem draw_clean : ∀ (n : ParseTreeNode), CleanNode n → ∀ l ∈ draw n, '\n' ∉ l
  | .terminal t, h => by rw [CleanNode] at h; simp [draw, h]
  | .nonterminal lhs kids, h => by
    rw [CleanNode] at h
    obtain ⟨⟨n, rfl, hn⟩, hk⟩ := h
    intro l hl
    simp only [draw, List.mem_cons] at hl
    rcases hl with rfl | hl
    · simp only [Term.display, List.mem_append, not_or, List.mem_flatMap, not_exists, not_and]
      refine ⟨⟨by simp [hn], by decide⟩, fun k hk' => ⟨by decide, label_clean (cleanNodes_mem hk k hk')⟩⟩
    · exact drawKids_clean kids hk l hl
theorem drawKids_clean : ∀ (ks : List ParseTreeNode), CleanNodes ks → ∀ l ∈ drawKids ks, '\n' ∉ l
  | [], _ => by simp [drawKids]
  | [k], h => by
    rw [CleanNodes] at h
    rw [drawKids]
    exact indent_clean (by decide) (by decide) (draw_clean k h.1)
  | k :: k' :: ks, h => by
    rw [CleanNodes] at h
    rw [drawKids]
    intro l hl
    rcases List.mem_append.1 hl with hl | hl
    · exact indent_clean (by decide) (by decide) (draw_clean k h.1) l hl
    · exact drawKids_clean (k' :: ks) h.2 l hl
end

theorem unlines_inj : ∀ {a b : List Str}, (∀ l ∈ a, '\n' ∉ l) → (∀ l ∈ b, '\n' ∉ l) → unlines a = unlines b → a = b
  | [], [], _, _, _ => rfl
  | [], b :: bs, _, _, h => by simp [unlines] at h
  | a :: as, [], _, _, h => by simp [unlines] at h
  | a :: as, b :: bs, ha, hb, h => by
    simp only [unlines, List.flatMap_cons, List.append_assoc, List.singleton_append] at h
    obtain ⟨h1, h2⟩ := split_at_char (ha a (by simp)) (hb b (by simp)) h
    rw [h1, unlines_inj (fun l hl => ha l (by simp [hl])) (fun l hl => hb l (by simp [hl])) h2]

/-! ## Escaping -/

theorem escape_cons (c : Char) (cs : Str) : escapeMermaidLabel (c :: cs) =
    (if c ∈ mermaidEscapeChars then ['#'] ++ (toString c.toNat).toList ++ [';'] else [c]) ++ escapeMermaidLabel cs := by
  rw [escapeMermaidLabel]
  by_cases h : c ∈ mermaidEscapeChars <;> simp [h]

theorem decode_escape : ∀ s : Str, decodeEntities none (escapeMermaidLabel s) = s
  | [] => rfl
  | c :: cs => by
    rw [escape_cons]
    by_cases h : c ∈ mermaidEscapeChars
    · rw [if_pos h]
      have ih := decode_escape cs
      simp only [mermaidEscapeChars, List.mem_cons, List.not_mem_nil, or_false] at h
      rcases h with rfl | rfl | rfl | rfl | rfl | rfl | rfl | rfl | rfl | rfl | rfl <;>
        (simp only [show ∀ n : Nat, toString n = Nat.repr n from fun _ => rfl]
         generalize escapeMermaidLabel cs = t at ih
         rw [← ih]
         rfl)
    · rw [if_neg h]
      have : c ≠ '#' := by rintro rfl; exact h (by decide)
      simp [decodeEntities, this, decode_escape cs]

theorem escape_safe (c : Char) (hc : c ∈ mermaidEscapeChars) (h1 : c ≠ '#') (h2 : c ≠ ';') : ∀ s : Str, c ∉ escapeMermaidLabel s
  | [] => by simp [escapeMermaidLabel]
  | d :: s => by
    rw [escape_cons]
    have ih := escape_safe c hc h1 h2 s
    by_cases h : d ∈ mermaidEscapeChars
    · rw [if_pos h]
      simp only [List.mem_append, not_or]
      refine ⟨⟨⟨by simpa using h1, ?_⟩, by simpa using h2⟩, ih⟩
      simp only [mermaidEscapeChars, List.mem_cons, List.not_mem_nil, or_false] at h hc
      rcases h with rfl | rfl | rfl | rfl | rfl | rfl | rfl | rfl | rfl | rfl | rfl <;>
        rcases hc with rfl | rfl | rfl | rfl | rfl | rfl | rfl | rfl | rfl | rfl | rfl <;> decide
    · rw [if_neg h]
      simp only [List.mem_append, not_or]
      exact ⟨by simp; rintro rfl; exact h hc, ih⟩

/-! ## Mermaid -/

mutual
theorem preorder_length : ∀ n : ParseTreeNode, (preorder n).length = nodeCount n
  | .terminal _ => by simp [preorder, nodeCount]
  | .nonterminal _ kids => by simp [preorder, nodeCount, preorderKids_length 0 kids]; omega
theorem preorderKids_length : ∀ (i : Nat) (ks : List ParseTreeNode), (preorderKids i ks).length = nodesCount ks
  | _, [] => by simp [preorderKids, nodesCount]
  | i, k :: ks => by simp [preorderKids, nodesCount, preorder_length k, preorderKids_length (i + 1) ks]
end

mutual
theorem preorder_nodup : ∀ n : ParseTreeNode, ((preorder n).map Prod.fst).Nodup
  | .terminal _ => by simp [preorder]
  | .nonterminal _ kids => by
    obtain ⟨h1, h2⟩ := preorderKids_nodup 0 kids
    rw [preorder, List.map_cons, List.nodup_cons]
    refine ⟨fun h => ?_, h1⟩
    obtain ⟨j, q, h3, _⟩ := h2 _ h
    cases h3
theorem preorderKids_nodup : ∀ (i : Nat) (ks : List ParseTreeNode), ((preorderKids i ks).map Prod.fst).Nodup ∧
    ∀ p ∈ (preorderKids i ks).map Prod.fst, ∃ j q, p = j :: q ∧ i ≤ j
  | _, [] => by simp [preorderKids]
  | i, k :: ks => by
    obtain ⟨h1, h2⟩ := preorderKids_nodup (i + 1) ks
    have h0 := preorder_nodup k
    have hm : ((preorder k).map (fun x => (i :: x.1, x.2))).map Prod.fst = ((preorder k).map Prod.fst).map (i :: ·) := by
      simp [Function.comp_def]
    rw [preorderKids, List.map_append, hm]
    constructor
    · rw [List.nodup_append]
      refine ⟨List.Nodup.map (fun a b h => by simpa using h) h0, h1, ?_⟩
      intro a ha b hb hab
      subst hab
      obtain ⟨q, _, rfl⟩ := List.mem_map.1 ha
      obtain ⟨j, q', h3, h4⟩ := h2 _ hb
      injection h3 with h3
      omega
    · intro p hp
      rcases List.mem_append.1 hp with hp | hp
      · obtain ⟨q, _, rfl⟩ := List.mem_map.1 hp
        exact ⟨i, q, rfl, Nat.le_refl _⟩
      · obtain ⟨j, q, h3, h4⟩ := h2 _ hp
        exact ⟨j, q, h3, by omega⟩
end

/-- Edges below a node: number and name of the parent, number and name of the child. -/
abbrev MermaidEdge := (Nat × Str) × (Nat × Str)

def edgesText (E : List MermaidEdge) : Str :=
  E.flatMap fun e => edgeLine (e.1.1, escapeMermaidLabel e.1.2) (e.2.1, escapeMermaidLabel e.2.2)

theorem mermaidEdge_eq (x y : Nat × Str) : mermaidEdge x.1 x.2 y.1 y.2 = edgeLine x y := by
  simp [mermaidEdge, edgeLine]

/-- `K` is the preorder of the children (from child `i` on) of a node `(k, l)`; the first of them gets the number `c + 1`. -/
def EdgesOk (k : Nat) (l : Str) (c : Nat) (K : List (List Nat × Str)) (E : List MermaidEdge) : Prop :=
  E.map (fun e => e.2.1) = List.range' (c + 1) K.length ∧
  ∀ e ∈ E, ∃ q j, K[e.2.1 - (c + 1)]? = some (q ++ [j], e.2.2) ∧
    ((e.1 = (k, l) ∧ q = []) ∨ (c + 1 ≤ e.1.1 ∧ K[e.1.1 - (c + 1)]? = some (q, e.1.2)))

theorem edgesOk_cons {k c : Nat} {l : Str} {i : Nat} {name : Str} {Kin Kout : List (List Nat × Str)} {E1 E2 : List MermaidEdge}
    (h1 : EdgesOk (c + 1) name (c + 1) Kin E1)
    (h2 : EdgesOk k l (c + (1 + Kin.length)) Kout E2) :
    EdgesOk k l c ((([], name) :: Kin).map (fun x => (i :: x.1, x.2)) ++ Kout) (((k, l), (c + 1, name)) :: E1 ++ E2) := by
  obtain ⟨a1, a2⟩ := h1
  obtain ⟨b1, b2⟩ := h2
  constructor
  · rw [List.map_append, List.map_cons, a1, b1]
    simp only [List.length_append, List.length_map, List.length_cons, List.cons_append]
    rw [show Kin.length + 1 + Kout.length = (Kin.length + Kout.length) + 1 by omega, List.range'_succ,
      ← List.range'_append_1 (s := c + 1 + 1) (m := Kin.length) (n := Kout.length)]
    congr 3
    omega
  · intro e he
    rcases List.mem_append.1 he with he | he
    · rcases List.mem_cons.1 he with rfl | he
      · exact ⟨[], i, by simp, .inl ⟨rfl, rfl⟩⟩
      · obtain ⟨q, j, h3, h4⟩ := a2 e he
        have hmem : e.2.1 ∈ List.range' (c + 1 + 1) Kin.length := by rw [← a1]; exact List.mem_map.2 ⟨e, he, rfl⟩
        rw [List.mem_range'_1] at hmem
        have lift : ∀ n x, c + 1 + 1 ≤ n → Kin[n - (c + 1 + 1)]? = some x →
            ((([], name) :: Kin).map (fun x => (i :: x.1, x.2)) ++ Kout)[n - (c + 1)]? = some (i :: x.1, x.2) := by
          intro n x hn hx
          have hlt := (List.getElem?_eq_some_iff.1 hx).1
          rw [List.getElem?_append_left (by simp; omega), List.getElem?_map,
            show n - (c + 1) = (n - (c + 1 + 1)) + 1 by omega, List.getElem?_cons_succ, hx]
          rfl
        refine ⟨i :: q, j, by simpa using lift _ _ hmem.1 h3, .inr ?_⟩
        rcases h4 with ⟨h4, rfl⟩ | ⟨h4, h5⟩
        · rw [h4]; exact ⟨by simp, by simp⟩
        · exact ⟨by omega, lift _ _ h4 h5⟩
    · obtain ⟨q, j, h3, h4⟩ := b2 e he
      have hmem : e.2.1 ∈ List.range' (c + (1 + Kin.length) + 1) Kout.length := by rw [← b1]; exact List.mem_map.2 ⟨e, he, rfl⟩
      rw [List.mem_range'_1] at hmem
      have lift : ∀ n x, c + (1 + Kin.length) + 1 ≤ n → Kout[n - (c + (1 + Kin.length) + 1)]? = some x →
          ((([], name) :: Kin).map (fun x => (i :: x.1, x.2)) ++ Kout)[n - (c + 1)]? = some x := by
        intro n x hn hx
        rw [List.getElem?_append_right (by simp; omega), List.length_map, List.length_cons,
          show n - (c + 1) - (Kin.length + 1) = n - (c + (1 + Kin.length) + 1) by omega, hx]
      refine ⟨q, j, lift _ _ hmem.1 h3, ?_⟩
      rcases h4 with h4 | ⟨h4, h5⟩
      · exact .inl h4
      · exact .inr ⟨by omega, lift _ _ h4 h5⟩

theorem mermaidChildren_eq : ∀ (ks : List ParseTreeNode), AllInnerNonterminals ks → ∀ (l : Str) (k c i : Nat),
    ∃ E, mermaidChildren ks (escapeMermaidLabel l) k c = some (edgesText E, c + nodesCount ks) ∧ EdgesOk k l c (preorderKids i ks) E
  | [], _, l, k, c, i => ⟨[], by simp [mermaidChildren, edgesText, nodesCount], by simp [preorderKids, EdgesOk]⟩
  | .terminal t :: ks, h, l, k, c, i => by
    rw [AllInnerNonterminals] at h
    obtain ⟨E, h1, h2⟩ := mermaidChildren_eq ks h.2 l k (c + 1) (i + 1)
    refine ⟨((k, l), (c + 1, t)) :: E, ?_, ?_⟩
    · rw [mermaidChildren]
      simp only [h1]
      simp [edgesText, mermaidEdge_eq (k, _) (c + 1, _), nodesCount, nodeCount]
      omega
    · have := edgesOk_cons (k := k) (l := l) (c := c) (i := i) (name := t) (Kin := []) (E1 := []) (by simp [EdgesOk]) h2
      simpa [preorderKids, preorder] using this
  | .nonterminal lhs kids :: ks, h, l, k, c, i => by
    rw [AllInnerNonterminals, InnerNonterminals] at h
    obtain ⟨⟨⟨n, rfl⟩, hk⟩, h⟩ := h
    obtain ⟨E1, h1, h2⟩ := mermaidChildren_eq kids hk n (c + 1) (c + 1) 0
    obtain ⟨E, h3, h4⟩ := mermaidChildren_eq ks h l k (c + 1 + nodesCount kids) (i + 1)
    refine ⟨((k, l), (c + 1, n)) :: E1 ++ E, ?_, ?_⟩
    · rw [mermaidChildren]
      simp only [mermaidTree, h1, h3]
      simp [edgesText, mermaidEdge_eq (k, _) (c + 1, _), nodesCount, nodeCount]
      omega
    · have := edgesOk_cons (k := k) (l := l) (c := c) (i := i) (name := n) (Kin := preorderKids 0 kids) (Kout := preorderKids (i + 1) ks)
        (E1 := E1) (E2 := E) h2 (by rw [preorderKids_length]; rw [show c + (1 + nodesCount kids) = c + 1 + nodesCount kids by omega]; exact h4)
      simpa [preorderKids, preorder, nodeName] using this

theorem innerNonterminals_of_forest {g : Grammar} {ts ns} (h : IsForest g ts ns) : AllInnerNonterminals ns := by
  induction h with
  | nil => simp [AllInnerNonterminals]
  | terminal _ ih => simp [AllInnerNonterminals, InnerNonterminals, ih]
  | nonterminal _ _ _ ih1 ih2 => simp [AllInnerNonterminals, InnerNonterminals, ih1, ih2]

end Bnf
