import Verif.Proofs.CostDepth

/-! The characters that are counted as looked at determine the result. -/

set_option autoImplicit false

namespace Bnf.Timed
open Bnf.Spec
variable {α β γ : Type}

/-- The texts agree in the first `n` characters, and in ending before if they do. -/
def Agree (n : Nat) (s s' : Str) : Prop := s.take n = s'.take n

theorem Agree.mono {n m : Nat} {s s' : Str} (h : Agree n s s') (hm : m ≤ n) : Agree m s s' := by
  have := congrArg (List.take m) h
  rw [List.take_take, List.take_take, Nat.min_eq_left hm] at this
  exact this

theorem Agree.drop {n m : Nat} {w r r' : Str} (h : Agree n (w ++ r) (w ++ r')) (hm : w.length + m ≤ n) : Agree m r r' := by
  have h := h.mono hm
  unfold Agree at h ⊢
  rw [List.take_append, List.take_append] at h
  have := List.append_cancel_left h
  simpa using this

theorem Agree.tail {n : Nat} {c : Char} {s s' : Str} (h : Agree (n + 1) (c :: s) s') : ∃ t, s' = c :: t ∧ Agree n s t := by
  cases s' with
  | nil => simp [Agree] at h
  | cons d t =>
    simp only [Agree, List.take_succ_cons, List.cons.injEq] at h
    exact ⟨t, by rw [h.1], h.2⟩

theorem Agree.nil {n : Nat} {s' : Str} (h : Agree (n + 1) [] s') : s' = [] := by
  cases s' with
  | nil => rfl
  | cons d t => simp [Agree] at h

/-- The same result for two texts: failure, or success with the same value after the same characters. -/
inductive Same (s s' : Str) (c : Nat) : Res α → Res α → Prop
  | fuelL (x : Res α) : Same s s' c .fuel x
  | fuelR (x : Res α) : Same s s' c x .fuel
  | err : Same s s' c .err .err
  | ok (w r r' : Str) (v : α) : s = w ++ r → s' = w ++ r' → w.length ≤ c → Same s s' c (.ok r v) (.ok r' v)

/-- `p` looks at no more characters than it counts: on a text that agrees in these, it (or the same parser with other fuel) does the same. -/
def Loc (p p' : Timed α) : Prop := ∀ s s', Agree (p.cost s) s s' → Same s s' (p.cost s) (p.run s) (p'.run s')

theorem loc_pure (v : α) : Loc (pure v) (pure v) := fun s s' _ => .ok [] s s' v rfl rfl (Nat.zero_le _)

theorem loc_bind {a a' : Timed α} {f f' : α → Timed β} (ha : Loc a a') (hf : ∀ v, Loc (f v) (f' v)) : Loc (bind a f) (bind a' f') := by
  intro s s' h
  simp only [bind] at h ⊢
  have h1 := ha s s' (h.mono (Nat.le_add_right _ _))
  generalize a'.run s' = y at h1
  cases hx : a.run s with
  | fuel => exact .fuelL _
  | err =>
    rw [hx] at h1
    cases h1 with
    | fuelR => exact .fuelR _
    | err => exact .err
  | ok r v =>
    rw [hx] at h1
    cases h1 with
    | fuelR => exact .fuelR _
    | ok w _ r' _ hs hs' hw =>
      rw [hx] at h
      simp only [Res.andThen] at h ⊢
      have h2 := hf v r r' (by rw [hs, hs'] at h; exact h.drop (by rw [← hs]; omega))
      generalize (f' v).run r' = z at h2
      generalize (f v).run r = u at h2
      cases h2 with
      | fuelL => exact .fuelL _
      | fuelR => exact .fuelR _
      | err => exact .err
      | ok w2 r2 r2' v2 hs2 hs2' hw2 =>
        exact .ok (w ++ w2) r2 r2' v2 (by rw [hs, hs2, List.append_assoc]) (by rw [hs', hs2', List.append_assoc])
          (by rw [List.length_append]; omega)

theorem loc_alt {a a' b b' : Timed α} (ha : Loc a a') (hb : Loc b b') : Loc (alt a b) (alt a' b') := by
  intro s s' h
  simp only [alt, Nom.alt] at h ⊢
  have h1 := ha s s' (h.mono (Nat.le_add_right _ _))
  generalize a'.run s' = y at h1
  cases hx : a.run s with
  | fuel => exact .fuelL _
  | err =>
    rw [hx] at h1 h
    simp only at h ⊢
    cases h1 with
    | fuelR => exact .fuelR _
    | err =>
      have h2 := hb s s' (h.mono (Nat.le_add_left _ _))
      simp only
      generalize b'.run s' = z at h2
      generalize b.run s = u at h2
      cases h2 with
      | fuelL => exact .fuelL _
      | fuelR => exact .fuelR _
      | err => exact .err
      | ok w r r' v hs hs' hw => exact .ok w r r' v hs hs' (by omega)
  | ok r v =>
    rw [hx] at h1
    cases h1 with
    | fuelR => exact .fuelR _
    | ok w _ r' _ hs hs' hw => exact .ok w r r' v hs hs' (by simpa using hw)

/-- Combinators that only change what is returned. -/
theorem loc_of {a a' : Timed α} (ha : Loc a a') {q q' : Timed β} (hc : q.cost = a.cost)
    (hq : ∀ s s' c, Same s s' c (a.run s) (a'.run s') → Same s s' c (q.run s) (q'.run s')) : Loc q q' := by
  intro s s' h
  rw [hc] at h ⊢
  exact hq _ _ _ (ha s s' h)

theorem loc_not {a a' : Timed α} (ha : Loc a a') : Loc (not a) (not a') := loc_of ha rfl fun s s' c h => by
  simp only [not, Nom.not]
  generalize a'.run s' = y at h
  generalize a.run s = x at h
  cases h with
  | fuelL => exact .fuelL _
  | fuelR => exact .fuelR _
  | err => exact .ok [] s s' () rfl rfl (Nat.zero_le _)
  | ok => exact .err

theorem loc_peek {a a' : Timed α} (ha : Loc a a') : Loc (peek a) (peek a') := loc_of ha rfl fun s s' c h => by
  simp only [peek, Nom.peek]
  generalize a'.run s' = y at h
  generalize a.run s = x at h
  cases h with
  | fuelL => exact .fuelL _
  | fuelR => exact .fuelR _
  | err => exact .err
  | ok w r r' v => exact .ok [] s s' v rfl rfl (Nat.zero_le _)

theorem loc_recognize {a a' : Timed α} (ha : Loc a a') : Loc (recognize a) (recognize a') := loc_of ha rfl fun s s' c h => by
  simp only [recognize, Nom.recognize]
  generalize a'.run s' = y at h
  generalize a.run s = x at h
  cases h with
  | fuelL => exact .fuelL _
  | fuelR => exact .fuelR _
  | err => exact .err
  | ok w r r' v hs hs' hw => exact .ok w r r' () hs hs' hw

theorem loc_opt {a a' : Timed α} (ha : Loc a a') : Loc (opt a) (opt a') := loc_of ha rfl fun s s' c h => by
  simp only [opt, Nom.opt]
  generalize a'.run s' = y at h
  generalize a.run s = x at h
  cases h with
  | fuelL => exact .fuelL _
  | fuelR => exact .fuelR _
  | err => exact .ok [] s s' none rfl rfl (Nat.zero_le _)
  | ok w r r' v hs hs' hw => exact .ok w r r' (some v) hs hs' hw

theorem loc_deeper {a a' : Timed α} (ha : Loc a a') : Loc (deeper a) (deeper a') := loc_of ha rfl fun _ _ _ h => h

theorem loc_allConsuming {a a' : Timed α} (ha : Loc a a') : Loc (allConsuming a) (allConsuming a') := by
  intro s s' h
  simp only [allConsuming, Nom.allConsuming] at h ⊢
  have h1 := ha s s' (h.mono (Nat.le_add_right _ _))
  generalize a'.run s' = y at h1
  cases hx : a.run s with
  | fuel => exact .fuelL _
  | err =>
    rw [hx] at h1
    cases h1 with
    | fuelR => exact .fuelR _
    | err => exact .err
  | ok r v =>
    rw [hx] at h1
    cases h1 with
    | fuelR => exact .fuelR _
    | ok w _ r' _ hs hs' hw =>
      rw [hx] at h
      simp only [Res.andThen] at h ⊢
      have h2 : Agree 1 r r' := by rw [hs, hs'] at h; exact h.drop (by rw [← hs]; omega)
      cases r with
      | nil =>
        obtain rfl := h2.nil
        exact .ok w [] [] v hs hs' (by omega)
      | cons c cs =>
        obtain ⟨t, rfl, _⟩ := h2.tail
        exact .err

theorem byteLen_same {w r : Str} : byteLen r = byteLen (w ++ r) ↔ w = [] := by
  constructor
  · intro h; exact byteLen_eq_of_suffix h
  · rintro rfl; rfl

theorem manyLoop_loc {p p' : Timed α} (hp : Loc p p') : ∀ n n' s s' acc, Agree (manyCost p n s) s s' →
    Same s s' (manyCost p n s) (Nom.manyLoop p.run n s acc) (Nom.manyLoop p'.run n' s' acc) := by
  intro n
  induction n with
  | zero => intro n' s s' acc _; exact .fuelL _
  | succ n ih =>
    intro n' s s' acc h
    cases n' with
    | zero => exact .fuelR _
    | succ n' =>
      simp only [manyCost] at h ⊢
      simp only [Nom.manyLoop]
      have h1 := hp s s' (h.mono (Nat.le_add_right _ _))
      generalize p'.run s' = y at h1
      cases hx : p.run s with
      | fuel => exact .fuelL _
      | err =>
        rw [hx] at h1
        cases h1 with
        | fuelR => exact .fuelR _
        | err => exact .ok [] s s' acc rfl rfl (Nat.zero_le _)
      | ok r v =>
        rw [hx] at h1
        cases h1 with
        | fuelR => exact .fuelR _
        | ok w _ r' _ hs hs' hw =>
          rw [hx] at h
          simp only at h ⊢
          by_cases hb : byteLen r = byteLen s
          · obtain rfl : w = [] := byteLen_same.mp (by rw [← hs]; exact hb)
            have hb' : byteLen r' = byteLen s' := by rw [hs']; rfl
            rw [if_pos hb', if_pos hb, if_pos hb]
            exact .err
          · rw [if_neg hb] at h ⊢
            have hb' : byteLen r' ≠ byteLen s' := fun hb' => hb (by
              obtain rfl : w = [] := byteLen_same.mp (by rw [← hs']; exact hb')
              rw [hs]; rfl)
            rw [if_neg hb']
            have h2 := ih n' r r' (acc ++ [v]) (by rw [hs, hs'] at h; exact h.drop (by rw [← hs]; omega))
            rw [if_neg hb]
            generalize Nom.manyLoop p'.run n' r' (acc ++ [v]) = z at h2
            generalize Nom.manyLoop p.run n r (acc ++ [v]) = u at h2
            cases h2 with
            | fuelL => exact .fuelL _
            | fuelR => exact .fuelR _
            | err => exact .err
            | ok w2 r2 r2' v2 hs2 hs2' hw2 =>
              exact .ok (w ++ w2) r2 r2' v2 (by rw [hs, hs2, List.append_assoc]) (by rw [hs', hs2', List.append_assoc])
                (by rw [List.length_append]; omega)

theorem loc_many1 {p p' : Timed α} (hp : Loc p p') (n n' : Nat) : Loc (many1 n p) (many1 n' p') := by
  intro s s' h
  simp only [many1, Nom.many1] at h ⊢
  have h1 := hp s s' (h.mono (Nat.le_add_right _ _))
  generalize p'.run s' = y at h1
  cases hx : p.run s with
  | fuel => exact .fuelL _
  | err =>
    rw [hx] at h1
    cases h1 with
    | fuelR => exact .fuelR _
    | err => exact .err
  | ok r v =>
    rw [hx] at h1
    cases h1 with
    | fuelR => exact .fuelR _
    | ok w _ r' _ hs hs' hw =>
      rw [hx] at h
      simp only [Res.andThen] at h ⊢
      have h2 := manyLoop_loc hp n n' r r' [v] (by rw [hs, hs'] at h; exact h.drop (by rw [← hs]; omega))
      generalize Nom.manyLoop p'.run n' r' [v] = z at h2
      generalize Nom.manyLoop p.run n r [v] = u at h2
      cases h2 with
      | fuelL => exact .fuelL _
      | fuelR => exact .fuelR _
      | err => exact .err
      | ok w2 r2 r2' v2 hs2 hs2' hw2 =>
        exact .ok (w ++ w2) r2 r2' v2 (by rw [hs, hs2, List.append_assoc]) (by rw [hs', hs2', List.append_assoc])
          (by rw [List.length_append]; omega)

theorem xtLoop_loc {p p' : Timed α} {d d' : Timed β} (hp : Loc p p') (hd : Loc d d') : ∀ n n' s s' acc, Agree (xtCost p d n s) s s' →
    Same s s' (xtCost p d n s) (Nom.xtLoop p.run d.run n s acc) (Nom.xtLoop p'.run d'.run n' s' acc) := by
  intro n
  induction n with
  | zero => intro n' s s' acc _; exact .fuelL _
  | succ n ih =>
    intro n' s s' acc h
    cases n' with
    | zero => exact .fuelR _
    | succ n' =>
      simp only [xtCost] at h ⊢
      simp only [Nom.xtLoop]
      have h1 := hp s s' (h.mono (Nat.le_add_right _ _))
      generalize p'.run s' = y at h1
      cases hx : p.run s with
      | fuel => exact .fuelL _
      | err =>
        rw [hx] at h1
        cases h1 with
        | fuelR => exact .fuelR _
        | err => exact .err
      | ok r v =>
        rw [hx] at h1
        cases h1 with
        | fuelR => exact .fuelR _
        | ok w _ r' _ hs hs' hw =>
          rw [hx] at h
          simp only at h ⊢
          have h2 := hd r r' (by rw [hs, hs'] at h; exact h.drop (by rw [← hs]; omega))
          generalize d'.run r' = z at h2
          cases hy : d.run r with
          | fuel => exact .fuelL _
          | err =>
            rw [hy] at h2
            cases h2 with
            | fuelR => exact .fuelR _
            | err => exact .ok w r r' _ hs hs' (by omega)
          | ok r2 v2 =>
            rw [hy] at h2
            cases h2 with
            | fuelR => exact .fuelR _
            | ok w2 _ r2' _ hs2 hs2' hw2 =>
              rw [hy] at h
              simp only at h ⊢
              have hr : Agree (d.cost r + xtCost p d n r2) r r' := by rw [hs, hs'] at h; exact h.drop (by rw [← hs]; omega)
              have h3 := ih n' r2 r2' (acc ++ [v]) (by rw [hs2, hs2'] at hr; exact hr.drop (by rw [← hs2]; omega))
              generalize Nom.xtLoop p'.run d'.run n' r2' (acc ++ [v]) = z at h3
              generalize Nom.xtLoop p.run d.run n r2 (acc ++ [v]) = u at h3
              cases h3 with
              | fuelL => exact .fuelL _
              | fuelR => exact .fuelR _
              | err => exact .err
              | ok w3 r3 r3' v3 hs3 hs3' hw3 =>
                exact .ok (w ++ (w2 ++ w3)) r3 r3' v3 (by rw [hs, hs2, hs3]; simp) (by rw [hs', hs2', hs3']; simp)
                  (by rw [List.length_append, List.length_append]; omega)

theorem loc_xtList {p p' : Timed α} {d d' : Timed β} (hp : Loc p p') (hd : Loc d d') (n n' : Nat) : Loc (xtList n p d) (xtList n' p' d') :=
  fun s s' h => xtLoop_loc hp hd n n' s s' [] h

/-! ## The parsers that look at characters themselves -/

theorem loc_satisfy (f : Char → Bool) : Loc (satisfy f) (satisfy f) := by
  intro s s' h
  have h : Agree 1 s s' := h
  show Same s s' 1 (Nom.satisfy f s) (Nom.satisfy f s')
  cases s with
  | nil => obtain rfl := h.nil; exact .err
  | cons c cs =>
    obtain ⟨t, rfl, _⟩ := h.tail
    simp only [Nom.satisfy]
    split
    · exact .ok [c] cs t c rfl rfl (Nat.le_refl _)
    · exact .err

theorem loc_char (c : Char) : Loc (char c) (char c) := by
  intro s s' h
  have h : Agree 1 s s' := h
  show Same s s' 1 (Nom.char c s) (Nom.char c s')
  cases s with
  | nil => obtain rfl := h.nil; exact .err
  | cons d cs =>
    obtain ⟨t, rfl, _⟩ := h.tail
    simp only [Nom.char]
    split
    · exact .ok [d] cs t d rfl rfl (Nat.le_refl _)
    · exact .err

theorem loc_eof : Loc eof eof := by
  intro s s' h
  have h : Agree 1 s s' := h
  show Same s s' 1 (Nom.eof s) (Nom.eof s')
  cases s with
  | nil => obtain rfl := h.nil; exact .ok [] [] [] () rfl rfl (Nat.zero_le _)
  | cons d cs =>
    obtain ⟨t, rfl, _⟩ := h.tail
    exact .err

theorem tag_same : ∀ (t s s' : Str), Agree t.length s s' → Same s s' t.length (Nom.tag t s) (Nom.tag t s')
  | [], s, s', _ => .ok [] s s' () rfl rfl (Nat.zero_le _)
  | c :: cs, s, s', h => by
    cases s with
    | nil => obtain rfl := h.nil; exact .err
    | cons d ds =>
      obtain ⟨t, rfl, h1⟩ := h.tail
      have h2 := tag_same cs ds t h1
      simp only [Nom.tag]
      split
      · generalize Nom.tag cs t = z at h2
        generalize Nom.tag cs ds = u at h2
        cases h2 with
        | fuelL => exact .fuelL _
        | fuelR => exact .fuelR _
        | err => exact .err
        | ok w r r' v hs hs' hw =>
          exact .ok (d :: w) r r' v (by rw [hs]; rfl) (by rw [hs']; rfl) (by simp only [List.length_cons]; omega)
      · exact .err

theorem loc_tag (t : Str) : Loc (tag t) (tag t) := fun s s' h => tag_same t s s' h

/-- What precedes the first character with a property, and whether there is one, is determined by the characters up to it. -/
theorem agree_takeWhile (f : Char → Bool) : ∀ (s s' : Str), Agree ((s.takeWhile f).length + 1) s s' →
    s'.takeWhile f = s.takeWhile f ∧ (s'.dropWhile f).isEmpty = (s.dropWhile f).isEmpty
  | [], s', h => by obtain rfl := Agree.nil (n := 0) h; exact ⟨rfl, rfl⟩
  | c :: cs, s', h => by
    by_cases hc : f c = true
    · simp only [List.takeWhile_cons, hc, if_true, List.length_cons] at h
      obtain ⟨t, rfl, h1⟩ := h.tail
      have ih := agree_takeWhile f cs t h1
      simp only [List.takeWhile_cons, List.dropWhile_cons, hc, if_true, ih, true_and]
    · obtain ⟨t, rfl, h1⟩ := h.tail
      simp [hc]

theorem loc_takeTill (f : Char → Bool) : Loc (takeTill f) (takeTill f) := by
  intro s s' h
  obtain ⟨h1, _⟩ := agree_takeWhile (fun c => !f c) s s' h
  show Same s s' _ (.ok _ _) (.ok (s'.dropWhile fun c => !f c) (s'.takeWhile fun c => !f c))
  rw [h1]
  refine .ok (s.takeWhile fun c => !f c) _ _ _ (List.takeWhile_append_dropWhile).symm ?_ ?_
  · rw [← h1]; exact (List.takeWhile_append_dropWhile).symm
  · simp only [takeTill, prim]; omega

theorem mem_iff_dropWhile (c : Char) (s : Str) : c ∈ s ↔ (s.dropWhile fun d => decide (d ≠ c)).isEmpty = false := by
  induction s with
  | nil => simp
  | cons d ds ih =>
    by_cases h : d = c
    · simp [h]
    · have : c ≠ d := fun e => h e.symm
      simp [h, this, ih]

theorem loc_takeUntil (c : Char) : Loc (takeUntil c) (takeUntil c) := by
  intro s s' h
  obtain ⟨h1, h2⟩ := agree_takeWhile (fun d => decide (d ≠ c)) s s' h
  have hm : c ∈ s' ↔ c ∈ s := by rw [mem_iff_dropWhile, mem_iff_dropWhile, h2]
  show Same s s' _ (Nom.takeUntil c s) (Nom.takeUntil c s')
  simp only [Nom.takeUntil, hm]
  split
  · rw [h1]
    refine .ok (s.takeWhile fun d => decide (d ≠ c)) _ _ _ (List.takeWhile_append_dropWhile).symm ?_ ?_
    · rw [← h1]; exact (List.takeWhile_append_dropWhile).symm
    · simp only [takeUntil, prim]; omega
  · exact .err

theorem skipM_same : ∀ (s s' : Str) (b : Bool) (k : Nat), s.length < k + (skipM b s).length → Agree k s s' →
    ∃ w, s = w ++ skipM b s ∧ s' = w ++ skipM b s' := by
  intro s
  induction s with
  | nil =>
    intro s' b k hk h
    have hk : 0 < k := by cases b <;> simpa [skipM] using hk
    obtain ⟨j, rfl⟩ : ∃ j, k = j + 1 := ⟨k - 1, by omega⟩
    obtain rfl := h.nil
    exact ⟨[], by cases b <;> rfl, by cases b <;> rfl⟩
  | cons c cs ih =>
    intro s' b k hk h
    have hlen := skipM_length b (c :: cs)
    obtain ⟨j, rfl⟩ : ∃ j, k = j + 1 := ⟨k - 1, by omega⟩
    obtain ⟨t, rfl, h1⟩ := h.tail
    have go : ∀ b', skipM b (c :: cs) = skipM b' cs → skipM b (c :: t) = skipM b' t →
        ∃ w, c :: cs = w ++ skipM b (c :: cs) ∧ c :: t = w ++ skipM b (c :: t) := by
      intro b' e1 e2
      rw [e1] at hk ⊢
      rw [e2]
      simp only [List.length_cons] at hk
      obtain ⟨w, hw, hw'⟩ := ih t b' j (by omega) h1
      exact ⟨c :: w, by rw [List.cons_append, ← hw], by rw [List.cons_append, ← hw']⟩
    cases b with
    | false =>
      by_cases hw : isWhitespace c = true
      · exact go false (by simp [skipM, hw]) (by simp [skipM, hw])
      · by_cases hc : c = ';'
        · exact go true (by rw [skipM, if_neg hw, if_pos hc]) (by rw [skipM, if_neg hw, if_pos hc])
        · exact ⟨[], by simp [skipM, hw, hc], by simp [skipM, hw, hc]⟩
    | true =>
      by_cases hc : c = '\r' ∨ c = '\n'
      · exact go false (by simp [skipM, hc]) (by simp [skipM, hc])
      · exact go true (by simp [skipM, hc]) (by simp [skipM, hc])

theorem loc_ws : Loc ws ws := by
  intro s s' h
  rw [ws_ok, ws_ok]
  have hc := wsCost_ge (n := s.length + 1) (s := s) (Nat.lt_succ_self _)
  obtain ⟨w, hw, hw'⟩ := skipM_same s s' false _ hc h
  refine .ok w _ _ () hw hw' ?_
  have := congrArg List.length hw
  rw [List.length_append] at this
  simp only [ws, prim]
  omega

/-! ## The parsers of the text format -/

theorem loc_nameText (F : Format) : Loc (nameText F) (nameText F) := by
  unfold nameText
  cases F.nonterminalDelimiter with
  | some ab => exact loc_bind (loc_char _) fun _ => loc_bind (loc_takeTill _) fun v => loc_bind (loc_char _) fun _ => loc_pure v
  | none =>
    intro s s' h
    simp only at h ⊢
    have h1 := loc_satisfy F.isAlphabetic s s' (h.mono (Nat.le_add_right _ _))
    have h1 : Same s s' 1 (Nom.satisfy F.isAlphabetic s) (Nom.satisfy F.isAlphabetic s') := h1
    generalize Nom.satisfy F.isAlphabetic s' = y at h1
    cases hx : Nom.satisfy F.isAlphabetic s with
    | fuel => exact .fuelL _
    | err =>
      rw [hx] at h1
      cases h1 with
      | fuelR => exact .fuelR _
      | err => exact .err
    | ok r v =>
      rw [hx] at h1 h
      cases h1 with
      | fuelR => exact .fuelR _
      | ok w _ r' _ hs hs' hw =>
        simp only [Res.andThen] at h ⊢
        have h2 := loc_takeTill _ s s' (h.mono (Nat.le_add_left _ _))
        simp only [takeTill, prim, Nom.takeTill] at h2 ⊢
        generalize hy : Res.ok (s'.dropWhile fun c => !(isWhitespace c || c == ')' || c == ']'))
          (s'.takeWhile fun c => !(isWhitespace c || c == ')' || c == ']')) = y at h2 ⊢
        generalize hz : Res.ok (s.dropWhile fun c => !(isWhitespace c || c == ')' || c == ']'))
          (s.takeWhile fun c => !(isWhitespace c || c == ')' || c == ']')) = z at h2 ⊢
        cases h2 with
        | fuelL => exact .fuelL _
        | fuelR => exact .fuelR _
        | err => exact .err
        | ok w r r' v hs hs' hw => exact .ok w r r' v hs hs' (by omega)

theorem loc_quotedText : Loc quotedText quotedText :=
  loc_alt (loc_bind (loc_char _) fun _ => loc_bind (loc_takeUntil _) fun v => loc_bind (loc_char _) fun _ => loc_pure v)
    (loc_bind (loc_char _) fun _ => loc_bind (loc_takeUntil _) fun v => loc_bind (loc_char _) fun _ => loc_pure v)

theorem loc_then_ws {a a' : Timed α} (ha : Loc a a') (f : α → β) :
    Loc (bind a fun v => bind ws fun _ => pure (f v)) (bind a' fun v => bind ws fun _ => pure (f v)) :=
  loc_bind ha fun _ => loc_bind loc_ws fun _ => loc_pure _

theorem loc_expressionNext (F : Format) : Loc (expressionNext F) (expressionNext F) :=
  loc_bind (loc_char _) fun _ => loc_bind loc_ws fun _ => loc_pure _

theorem loc_item {p p' : Timed α} (hp : Loc p p') (F : Format) :
    Loc (terminated p (not (tag F.productionSeparator))) (terminated p' (not (tag F.productionSeparator))) :=
  loc_bind hp fun v => loc_bind (loc_not (loc_tag _)) fun _ => loc_pure v

theorem loc_alts {pt pt' : Timed ParsedTerm} (F : Format) (hp : Loc pt pt') (n n' : Nat) :
    Loc (parsedAltsWith F n pt) (parsedAltsWith F n' pt') :=
  loc_xtList (loc_many1 (loc_item hp F) n n') (loc_expressionNext F) n n'

theorem loc_parsedTerm (F : Format) : ∀ n n', Loc (parsedTerm F n) (parsedTerm F n') := by
  intro n
  induction n with
  | zero => intro n' s s' _; exact .fuelL _
  | succ n ih =>
    intro n'
    cases n' with
    | zero => intro s s' _; exact .fuelR _
    | succ n' =>
      exact loc_deeper (loc_alt (loc_then_ws loc_quotedText _) (loc_alt (loc_then_ws (loc_nameText F) _)
        (loc_alt
          (loc_then_ws (loc_bind (loc_char _) fun _ => loc_bind (loc_alts F (ih n') n n') fun v => loc_bind (loc_char _) fun _ => loc_pure v) _)
          (loc_then_ws (loc_bind (loc_char _) fun _ => loc_bind (loc_alts F (ih n') n n') fun v => loc_bind (loc_char _) fun _ => loc_pure v) _))))

theorem loc_parsedProdLhs (F : Format) : Loc (parsedProdLhs F) (parsedProdLhs F) :=
  loc_bind (loc_nameText F) fun nt => loc_bind loc_ws fun _ => loc_bind (loc_tag _) fun _ => loc_bind (loc_opt (loc_char _)) fun _ =>
    loc_bind loc_ws fun _ => loc_pure nt

theorem loc_parsedGrammarComplete (F : Format) (n n' : Nat) : Loc (parsedGrammarComplete F n) (parsedGrammarComplete F n') :=
  loc_allConsuming (loc_bind loc_ws fun _ => loc_many1 (loc_bind loc_ws fun _ =>
    loc_bind (loc_parsedProdLhs F) fun _ => loc_bind (loc_alts F (loc_parsedTerm F n n') n n') fun _ =>
      loc_bind (loc_alt (loc_recognize (loc_peek loc_eof)) (loc_recognize (loc_peek (loc_parsedProdLhs F)))) fun _ => loc_pure _) n n')

theorem loc_term (F : Format) : Loc (term F) (term F) := loc_alt (loc_then_ws loc_quotedText _) (loc_then_ws (loc_nameText F) _)

theorem loc_prodLhs (F : Format) : Loc (prodLhs F) (prodLhs F) :=
  loc_bind (loc_then_ws (loc_nameText F) _) fun nt => loc_bind (loc_tag _) fun _ => loc_bind (loc_opt (loc_char _)) fun _ =>
    loc_bind loc_ws fun _ => loc_pure nt

theorem loc_productionEnd (F : Format) : Loc (productionEnd F) (productionEnd F) := by
  unfold productionEnd
  cases F.productionStartChar with
  | some c => exact loc_alt (loc_recognize (loc_peek loc_eof)) (loc_recognize (loc_peek (loc_bind loc_ws fun _ => loc_char c)))
  | none => exact loc_alt (loc_recognize (loc_peek loc_eof)) (loc_recognize (loc_peek (loc_prodLhs F)))

theorem loc_production (F : Format) (n n' : Nat) : Loc (production F n) (production F n') :=
  loc_bind (loc_prodLhs F) fun _ =>
    loc_bind (loc_xtList (loc_bind (loc_many1 (loc_item (loc_term F) F) n n') fun _ => loc_pure _) (loc_expressionNext F) n n') fun _ =>
    loc_bind (loc_productionEnd F) fun _ => loc_pure _

theorem loc_plainComplete (F : Format) (n n' : Nat) : Loc (allConsuming (plainGrammar F n)) (allConsuming (plainGrammar F n')) :=
  loc_allConsuming (loc_bind loc_ws fun _ => loc_bind (loc_production F n n') fun _ =>
    loc_bind (loc_many1 (loc_bind loc_ws fun _ => loc_production F n n') n n') fun _ => loc_pure _)

/-! ## The whole -/

theorem agree_contains {c : Char} {s s' : Str} (h : Agree (containsCost c s) s s') : s'.contains c = s.contains c := by
  obtain ⟨_, h2⟩ := agree_takeWhile (fun d => decide (d ≠ c)) s s' h
  rw [Bool.eq_iff_iff, List.contains_iff_mem, List.contains_iff_mem, mem_iff_dropWhile, mem_iff_dropWhile, h2]

theorem agree_scan : ∀ (s s' : Str) (a b : Bool), Agree (scanCost a b s) s s' → extendedScan a b s' = extendedScan a b s
  | [], s', a, b, h => by obtain rfl := Agree.nil (n := 0) h; rfl
  | c :: cs, s', a, b, h => by
    simp only [scanCost, Nat.add_comm 1] at h
    obtain ⟨t, rfl, h1⟩ := h.tail
    simp only [extendedScan]
    split
    · rename_i hc; rw [if_pos hc] at h1; exact agree_scan cs t _ _ h1
    · rename_i hc; rw [if_neg hc] at h1
      split
      · rename_i hc; rw [if_pos hc] at h1; exact agree_scan cs t _ _ h1
      · rename_i hc; rw [if_neg hc] at h1
        split
        · rename_i hc; rw [if_pos hc] at h1; exact agree_scan cs t _ _ h1
        · rename_i hc; rw [if_neg hc] at h1
          split
          · rename_i hc; rw [if_pos hc] at h1; exact agree_scan cs t _ _ h1
          · rename_i hc; rw [if_neg hc] at h1
            split
            · rfl
            · rename_i hc; rw [if_neg hc] at h1; exact agree_scan cs t _ _ h1

theorem agree_extended {s s' : Str} (h : Agree (hasExtendedCost s) s s') : grammarHasExtendedSyntax s' = grammarHasExtendedSyntax s := by
  simp only [hasExtendedCost] at h
  have h1 := agree_contains (h.mono (Nat.le_trans (Nat.le_add_right _ _) (Nat.le_add_right _ _)))
  cases hp : s.contains '(' with
  | true =>
    simp only [hp, Bool.not_true, Bool.false_and, Bool.false_eq_true, if_false, if_true] at h
    simp only [grammarHasExtendedSyntax, h1, hp, Bool.not_true, Bool.false_and, Bool.false_eq_true, if_false]
    exact agree_scan _ _ _ _ (h.mono (Nat.le_add_left _ _))
  | false =>
    simp only [hp, Bool.not_false, Bool.true_and, Bool.false_eq_true, if_false] at h
    have h2 := agree_contains (c := '[') (h.mono (by omega))
    simp only [grammarHasExtendedSyntax, h1, h2, hp, Bool.not_false, Bool.true_and]
    split
    · rfl
    · rename_i hb
      rw [if_neg hb] at h
      exact agree_scan _ _ _ _ (h.mono (Nat.le_add_left _ _))

theorem Same.mono {s s' : Str} {c c' : Nat} {x x' : Res α} (h : Same s s' c x x') (hc : c ≤ c') : Same s s' c' x x' := by
  cases h with
  | fuelL => exact .fuelL _
  | fuelR => exact .fuelR _
  | err => exact .err
  | ok w r r' v hs hs' hw => exact .ok w r r' v hs hs' (Nat.le_trans hw hc)

theorem loc_grammarComplete (F : Format) : Loc (grammarComplete F) (grammarComplete F) := by
  intro s s' h
  show Same s s' _ (grammarCompleteFuel F (s.length + 1) s) (grammarCompleteFuel F (s'.length + 1) s')
  have hext : ∀ c, (parsedGrammarComplete F (s.length + 1)).cost s ≤ c → Agree c s s' →
      Same s s' c ((Bnf.parsedGrammarComplete F (s.length + 1) s).andThen fun s parsed =>
        match normalizeParsedGrammar parsed with
        | none => .fuel
        | some g => .ok s g) ((Bnf.parsedGrammarComplete F (s'.length + 1) s').andThen fun s parsed =>
        match normalizeParsedGrammar parsed with
        | none => .fuel
        | some g => .ok s g) := by
    intro c hc ha
    have h1 := (loc_parsedGrammarComplete F (s.length + 1) (s'.length + 1) s s' (ha.mono hc)).mono hc
    rw [parsedGrammarComplete_run, parsedGrammarComplete_run] at h1
    generalize Bnf.parsedGrammarComplete F (s.length + 1) s = x at h1
    generalize Bnf.parsedGrammarComplete F (s'.length + 1) s' = y at h1
    cases h1 with
    | fuelL => exact .fuelL _
    | fuelR => exact .fuelR _
    | err => exact .err
    | ok w r r' v hs hs' hw =>
      simp only [Res.andThen]
      cases normalizeParsedGrammar v with
      | none => exact .fuelL _
      | some g => exact .ok w r r' g hs hs' hw
  have he := agree_extended (h.mono (by simp only [grammarComplete]; omega))
  simp only [grammarCompleteFuel, he]
  by_cases hs : grammarHasExtendedSyntax s = true
  · simp only [hs, if_true]
    exact hext _ (by simp only [grammarComplete, hs, if_true]; omega) h
  · simp only [hs, Bool.false_eq_true, if_false]
    have hpr : ∀ n u, (allConsuming (plainGrammar F n)).run u = Nom.allConsuming (Bnf.plainGrammar F n) u := fun n u => by
      simp only [allConsuming, plainGrammar_run]
    have hc : (allConsuming (plainGrammar F (s.length + 1))).cost s ≤ (grammarComplete F).cost s := by
      simp only [grammarComplete, hs, Bool.false_eq_true, if_false]; omega
    have h1 := (loc_plainComplete F (s.length + 1) (s'.length + 1) s s' (h.mono hc)).mono hc
    rw [hpr, hpr] at h1
    generalize Nom.allConsuming (Bnf.plainGrammar F (s'.length + 1)) s' = y at h1
    cases hx : Nom.allConsuming (Bnf.plainGrammar F (s.length + 1)) s with
    | fuel => exact .fuelL _
    | err =>
      rw [hx] at h1
      cases h1 with
      | fuelR => exact .fuelR _
      | err =>
        refine hext _ ?_ h
        simp only [grammarComplete, hs, Bool.false_eq_true, if_false, hpr, hx]
        omega
    | ok r v =>
      rw [hx] at h1
      cases h1 with
      | fuelR => exact .fuelR _
      | ok w _ r' _ hs hs' hw => exact .ok w r r' v hs hs' hw

theorem agree_format {s s' : Str} (h : Agree (isFormatCost s) s s') : isFormatStandardBnf s' = isFormatStandardBnf s := by
  have h1 := loc_bind loc_ws (fun _ => loc_char '<') s s' h
  have e : ∀ u, (bind ws fun _ => char '<').run u = (whitespacePlusComments u).andThen fun s _ => Nom.char '<' s := fun _ => rfl
  rw [e, e] at h1
  have hn : ∀ u, ((whitespacePlusComments u).andThen fun s _ => Nom.char '<' s) ≠ .fuel := by
    intro u hu
    have hw : whitespacePlusComments u = .ok (skipM false u) () := ws_ok u
    rw [hw] at hu
    exact Nom.char_no_fuel _ _ hu
  unfold isFormatStandardBnf
  have n1 := hn s
  have n2 := hn s'
  generalize ((whitespacePlusComments s).andThen fun s _ => Nom.char '<' s) = x at h1 n1
  generalize ((whitespacePlusComments s').andThen fun s _ => Nom.char '<' s) = y at h1 n2
  cases h1 with
  | fuelL => exact absurd rfl n1
  | fuelR => exact absurd rfl n2
  | err => rfl
  | ok => rfl

end Bnf.Timed
