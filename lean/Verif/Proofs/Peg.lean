import Verif.Model.Peg

/-!
# Lemmas about the rules of PEGTL
-/

namespace Verif.Peg

variable {A : Type}

/-- A rule that reads at least a character. -/
def Shrinks (p : PRule A) : Prop := ∀ s r l, p s = .ok r l → r.length < s.length

/-- What is left of a text is its end. -/
def Sub (p : PRule A) : Prop := ∀ s r l, p s = .ok r l → r <:+ s

theorem after_nil (x : Peg A) : after [] x = x := by cases x <;> rfl

theorem after_after (l k : List A) (x : Peg A) : after l (after k x) = after (l ++ k) x := by
  cases x <;> simp [after, List.append_assoc]

theorem starN_eq {p : PRule A} (hp : Shrinks p) : ∀ (n m : Nat) (s : List Char), s.length < n → s.length < m →
    starN p n s = starN p m s := by
  intro n
  induction n with
  | zero => intro m s h; omega
  | succ n ih =>
    intro m s h h'
    cases m with
    | zero => omega
    | succ m =>
      simp only [starN]
      cases hs : p s with
      | ok r l =>
        have := hp _ _ _ hs
        simp only []
        rw [ih m r (by omega) (by omega)]
      | fail l => rfl
      | throw l => rfl

theorem star_ok {p : PRule A} (hp : Shrinks p) {s r : List Char} {l : List A} (h : p s = .ok r l) :
    star p s = after l (star p r) := by
  have := hp _ _ _ h
  unfold star
  rw [starN, h]
  simp only []
  rw [starN_eq hp s.length (r.length + 1) r this (by omega)]

theorem star_fail {p : PRule A} {s : List Char} {l : List A} (h : p s = .fail l) : star p s = .ok s l := by
  unfold star; rw [starN, h]

theorem star_throw {p : PRule A} {s : List Char} {l : List A} (h : p s = .throw l) : star p s = .throw l := by
  unfold star; rw [starN, h]

theorem seq_ok {p q : PRule A} {s r : List Char} {l : List A} (h : p s = .ok r l) : seq p q s = after l (q r) := by
  simp [seq, h]

theorem seq_fail {p q : PRule A} {s : List Char} {l : List A} (h : p s = .fail l) : seq p q s = .fail l := by simp [seq, h]

theorem seq_throw {p q : PRule A} {s : List Char} {l : List A} (h : p s = .throw l) : seq p q s = .throw l := by simp [seq, h]

theorem must_ok {p : PRule A} {s r : List Char} {l : List A} (h : p s = .ok r l) : must p s = .ok r l := by simp [must, h]

theorem opt_ok {p : PRule A} {s r : List Char} {l : List A} (h : p s = .ok r l) : opt p s = .ok r l := by simp [opt, h]

theorem opt_fail {p : PRule A} {s : List Char} {l : List A} (h : p s = .fail l) : opt p s = .ok s l := by simp [opt, h]

theorem sor_ok {p q : PRule A} {s r : List Char} {l : List A} (h : p s = .ok r l) : sor p q s = .ok r l := by simp [sor, h]

theorem sor_fail {p q : PRule A} {s : List Char} {l : List A} (h : p s = .fail l) : sor p q s = after l (q s) := by simp [sor, h]

theorem act_ok {a : A} {p : PRule A} {s r : List Char} {l : List A} (h : p s = .ok r l) : act a p s = .ok r (l ++ [a]) := by
  simp [act, h]

theorem after_ok_inv {l k : List A} {x : Peg A} {r : List Char} (h : after l x = .ok r k) : ∃ k', x = .ok r k' ∧ k = l ++ k' := by
  cases x <;> simp_all [after]

theorem after_fail_inv {l k : List A} {x : Peg A} (h : after l x = .fail k) : ∃ k', x = .fail k' ∧ k = l ++ k' := by
  cases x <;> simp_all [after]

theorem after_throw_inv {l k : List A} {x : Peg A} (h : after l x = .throw k) : ∃ k', x = .throw k' ∧ k = l ++ k' := by
  cases x <;> simp_all [after]

theorem seq_inv {p q : PRule A} {s r : List Char} {l : List A} (h : seq p q s = .ok r l) :
    ∃ m l1 l2, p s = .ok m l1 ∧ q m = .ok r l2 ∧ l = l1 ++ l2 := by
  cases hp : p s with
  | ok m l1 =>
    rw [seq_ok hp] at h
    obtain ⟨k, hk, he⟩ := after_ok_inv h
    exact ⟨m, l1, k, rfl, hk, he⟩
  | fail l1 => simp [seq, hp] at h
  | throw l1 => simp [seq, hp] at h

theorem seq_fail_inv {p q : PRule A} {s : List Char} {l : List A} (h : seq p q s = .fail l) :
    p s = .fail l ∨ ∃ m l1 l2, p s = .ok m l1 ∧ q m = .fail l2 ∧ l = l1 ++ l2 := by
  cases hp : p s with
  | ok m l1 =>
    rw [seq_ok hp] at h
    obtain ⟨k, hk, he⟩ := after_fail_inv h
    exact .inr ⟨m, l1, k, rfl, hk, he⟩
  | fail l1 => simp_all [seq, hp]
  | throw l1 => simp [seq, hp] at h

theorem seq_throw_inv {p q : PRule A} {s : List Char} {l : List A} (h : seq p q s = .throw l) :
    p s = .throw l ∨ ∃ m l1 l2, p s = .ok m l1 ∧ q m = .throw l2 ∧ l = l1 ++ l2 := by
  cases hp : p s with
  | ok m l1 =>
    rw [seq_ok hp] at h
    obtain ⟨k, hk, he⟩ := after_throw_inv h
    exact .inr ⟨m, l1, k, rfl, hk, he⟩
  | fail l1 => simp [seq, hp] at h
  | throw l1 => simp_all [seq, hp]

theorem sor_inv {p q : PRule A} {s r : List Char} {l : List A} (h : sor p q s = .ok r l) :
    p s = .ok r l ∨ ∃ l1 l2, p s = .fail l1 ∧ q s = .ok r l2 ∧ l = l1 ++ l2 := by
  cases hp : p s with
  | ok m l1 => simp_all [sor]
  | fail l1 =>
    rw [sor_fail hp] at h
    obtain ⟨k, hk, he⟩ := after_ok_inv h
    exact .inr ⟨l1, k, rfl, hk, he⟩
  | throw l1 => simp [sor, hp] at h

theorem sor_fail_inv {p q : PRule A} {s : List Char} {l : List A} (h : sor p q s = .fail l) :
    ∃ l1 l2, p s = .fail l1 ∧ q s = .fail l2 ∧ l = l1 ++ l2 := by
  cases hp : p s with
  | ok m l1 => simp [sor, hp] at h
  | fail l1 =>
    rw [sor_fail hp] at h
    obtain ⟨k, hk, he⟩ := after_fail_inv h
    exact ⟨l1, k, rfl, hk, he⟩
  | throw l1 => simp [sor, hp] at h

theorem sor_throw_inv {p q : PRule A} {s : List Char} {l : List A} (h : sor p q s = .throw l) :
    p s = .throw l ∨ ∃ l1 l2, p s = .fail l1 ∧ q s = .throw l2 ∧ l = l1 ++ l2 := by
  cases hp : p s with
  | ok m l1 => simp [sor, hp] at h
  | fail l1 =>
    rw [sor_fail hp] at h
    obtain ⟨k, hk, he⟩ := after_throw_inv h
    exact .inr ⟨l1, k, rfl, hk, he⟩
  | throw l1 => simp_all [sor]

theorem must_inv {p : PRule A} {s r : List Char} {l : List A} (h : must p s = .ok r l) : p s = .ok r l := by
  cases hp : p s <;> simp_all [must]

theorem must_not_fail {p : PRule A} {s : List Char} {l : List A} : must p s ≠ .fail l := by
  cases hp : p s <;> simp_all [must]

theorem must_throw_inv {p : PRule A} {s : List Char} {l : List A} (h : must p s = .throw l) : p s = .throw l ∨ p s = .fail l := by
  cases hp : p s <;> simp_all [must]

theorem opt_inv {p : PRule A} {s r : List Char} {l : List A} (h : opt p s = .ok r l) :
    p s = .ok r l ∨ (r = s ∧ p s = .fail l) := by
  cases hp : p s <;> simp_all [opt]

theorem opt_not_fail {p : PRule A} {s : List Char} {l : List A} : opt p s ≠ .fail l := by
  cases hp : p s <;> simp_all [opt]

theorem opt_throw_inv {p : PRule A} {s : List Char} {l : List A} (h : opt p s = .throw l) : p s = .throw l := by
  cases hp : p s <;> simp_all [opt]

theorem act_inv {a : A} {p : PRule A} {s r : List Char} {l : List A} (h : act a p s = .ok r l) :
    ∃ k, p s = .ok r k ∧ l = k ++ [a] := by
  cases hp : p s <;> simp_all [act]

theorem act_fail_inv {a : A} {p : PRule A} {s : List Char} {l : List A} (h : act a p s = .fail l) : p s = .fail l := by
  cases hp : p s <;> simp_all [act]

theorem act_throw_inv {a : A} {p : PRule A} {s : List Char} {l : List A} (h : act a p s = .throw l) : p s = .throw l := by
  cases hp : p s <;> simp_all [act]

theorem actOn_inv {f : String → A} {p : PRule A} {s r : List Char} {l : List A} (h : actOn f p s = .ok r l) :
    ∃ k, p s = .ok r k ∧ l = k ++ [f (String.ofList (s.take (s.length - r.length)))] := by
  cases hp : p s with
  | ok m k =>
    simp only [actOn, hp, Peg.ok.injEq] at h
    obtain ⟨rfl, rfl⟩ := h
    exact ⟨k, rfl, rfl⟩
  | fail k => simp [actOn, hp] at h
  | throw k => simp [actOn, hp] at h

theorem actOn_fail_inv {f : String → A} {p : PRule A} {s : List Char} {l : List A} (h : actOn f p s = .fail l) : p s = .fail l := by
  cases hp : p s <;> simp_all [actOn]

theorem actOn_throw_inv {f : String → A} {p : PRule A} {s : List Char} {l : List A} (h : actOn f p s = .throw l) :
    p s = .throw l := by
  cases hp : p s <;> simp_all [actOn]

theorem sat_ok {f : Char → Bool} {c : Char} (r : List Char) (h : f c = true) : sat (A := A) f (c :: r) = .ok r [] := by simp [sat, h]

theorem sat_fail {f : Char → Bool} {s : List Char} (h : ∀ c r, s = c :: r → f c = false) : sat (A := A) f s = .fail [] := by
  cases s with
  | nil => rfl
  | cons c r => simp [sat, h c r rfl]

theorem one_ok (c : Char) (r : List Char) : one (A := A) c (c :: r) = .ok r [] := by simp [one, sat]

theorem one_fail {c : Char} {s : List Char} (h : ∀ r, s ≠ c :: r) : one (A := A) c s = .fail [] := by
  refine sat_fail fun d r hs => ?_
  subst hs
  simp only [beq_eq_false_iff_ne]
  rintro rfl
  exact h r rfl

theorem sat_inv {f : Char → Bool} {s r : List Char} {l : List A} (h : sat f s = .ok r l) : ∃ c, f c = true ∧ s = c :: r ∧ l = [] := by
  cases s with
  | nil => simp [sat] at h
  | cons c t =>
    by_cases hf : f c = true
    · simp only [sat, hf, if_true, Peg.ok.injEq] at h
      exact ⟨c, hf, by rw [h.1], h.2.symm⟩
    · simp [sat, hf] at h

theorem sat_fail_inv {f : Char → Bool} {s : List Char} {l : List A} (h : sat f s = .fail l) :
    l = [] ∧ ∀ c r, s = c :: r → f c = false := by
  cases s with
  | nil => simp only [sat, Peg.fail.injEq] at h; exact ⟨h.symm, by simp⟩
  | cons c t =>
    by_cases hf : f c = true
    · simp [sat, hf] at h
    · simp only [sat, hf, Peg.fail.injEq] at h
      refine ⟨by simpa using h.symm, ?_⟩
      intro c' r' hc
      simp only [List.cons.injEq] at hc
      rw [← hc.1]; simpa using hf

theorem sat_not_throw {f : Char → Bool} {s : List Char} {l : List A} : sat f s ≠ .throw l := by
  cases s with
  | nil => simp [sat]
  | cons c t => by_cases hf : f c = true <;> simp [sat, hf]

theorem one_inv {c : Char} {s r : List Char} {l : List A} (h : one c s = .ok r l) : s = c :: r ∧ l = [] := by
  obtain ⟨d, hd, hs, hl⟩ := sat_inv h
  simp only [beq_iff_eq] at hd
  exact ⟨by rw [hs, hd], hl⟩

theorem one_fail_inv {c : Char} {s : List Char} {l : List A} (h : one c s = .fail l) : l = [] ∧ ∀ r, s ≠ c :: r := by
  obtain ⟨h1, h2⟩ := sat_fail_inv h
  refine ⟨h1, fun r hr => ?_⟩
  have := h2 c r hr
  simp at this

theorem one_not_throw {c : Char} {s : List Char} {l : List A} : one c s ≠ .throw l := sat_not_throw

/-- Induction over the rounds of a loop that ends. -/
theorem star_ind {p : PRule A} (hp : Shrinks p) {Q : List Char → List Char → List A → Prop}
    (h0 : ∀ s l, p s = .fail l → Q s s l)
    (h1 : ∀ s m r l l', p s = .ok m l → star p m = .ok r l' → Q m r l' → Q s r (l ++ l')) :
    ∀ s r l, star p s = .ok r l → Q s r l := by
  intro s
  induction hn : s.length using Nat.strongRecOn generalizing s with
  | ind n ih =>
    intro r l h
    cases hs : p s with
    | ok m k =>
      rw [star_ok hp hs] at h
      obtain ⟨k', hk', rfl⟩ := after_ok_inv h
      have := hp _ _ _ hs
      exact h1 _ _ _ _ _ hs hk' (ih m.length (by omega) m rfl _ _ hk')
    | fail k =>
      rw [star_fail hs] at h
      cases h
      exact h0 _ _ hs
    | throw k => rw [star_throw hs] at h; cases h

/-- Induction over the rounds of a loop that throws. -/
theorem star_throw_ind {p : PRule A} (hp : Shrinks p) {Q : List Char → List A → Prop}
    (h0 : ∀ s l, p s = .throw l → Q s l)
    (h1 : ∀ s m l l', p s = .ok m l → star p m = .throw l' → Q m l' → Q s (l ++ l')) :
    ∀ s l, star p s = .throw l → Q s l := by
  intro s
  induction hn : s.length using Nat.strongRecOn generalizing s with
  | ind n ih =>
    intro l h
    cases hs : p s with
    | ok m k =>
      rw [star_ok hp hs] at h
      obtain ⟨k', hk', rfl⟩ := after_throw_inv h
      have := hp _ _ _ hs
      exact h1 _ _ _ _ hs hk' (ih m.length (by omega) m rfl _ hk')
    | fail k => rw [star_fail hs] at h; cases h
    | throw k => rw [star_throw hs] at h; cases h; exact h0 _ _ hs

theorem star_not_fail {p : PRule A} (hp : Shrinks p) {s : List Char} {l : List A} : star p s ≠ .fail l := by
  induction hn : s.length using Nat.strongRecOn generalizing s l with
  | ind n ih =>
    cases hs : p s with
    | ok m k =>
      rw [star_ok hp hs]
      intro h
      obtain ⟨k', hk', -⟩ := after_fail_inv h
      have := hp _ _ _ hs
      exact ih m.length (by omega) rfl hk'
    | fail k => rw [star_fail hs]; intro h; cases h
    | throw k => rw [star_throw hs]; intro h; cases h

theorem Sub.length {p : PRule A} (h : Sub p) {s r : List Char} {l : List A} (hs : p s = .ok r l) : r.length ≤ s.length :=
  (h _ _ _ hs).length_le

theorem sub_sat (f : Char → Bool) : Sub (sat (A := A) f) := fun s r l h => by
  obtain ⟨c, -, hs, -⟩ := sat_inv h
  rw [hs]; exact List.suffix_cons c r

theorem shrinks_sat (f : Char → Bool) : Shrinks (sat (A := A) f) := fun s r l h => by
  obtain ⟨c, -, hs, -⟩ := sat_inv h
  rw [hs]; simp

theorem sub_one (c : Char) : Sub (one (A := A) c) := sub_sat _

theorem shrinks_one (c : Char) : Shrinks (one (A := A) c) := shrinks_sat _

theorem Sub.seq {p q : PRule A} (hp : Sub p) (hq : Sub q) : Sub (seq p q) := fun s r l h => by
  obtain ⟨m, l1, l2, h1, h2, -⟩ := seq_inv h
  exact (hq _ _ _ h2).trans (hp _ _ _ h1)

theorem Shrinks.seq_left {p q : PRule A} (hp : Shrinks p) (hq : Sub q) : Shrinks (Peg.seq p q) := fun s r l h => by
  obtain ⟨m, l1, l2, h1, h2, -⟩ := seq_inv h
  have := hp _ _ _ h1
  have := hq.length h2
  omega

theorem Shrinks.seq_right {p q : PRule A} (hp : Sub p) (hq : Shrinks q) : Shrinks (Peg.seq p q) := fun s r l h => by
  obtain ⟨m, l1, l2, h1, h2, -⟩ := seq_inv h
  have := hp.length h1
  have := hq _ _ _ h2
  omega

theorem Sub.sor {p q : PRule A} (hp : Sub p) (hq : Sub q) : Sub (sor p q) := fun s r l h => by
  rcases sor_inv h with h | ⟨l1, l2, -, h, -⟩
  · exact hp _ _ _ h
  · exact hq _ _ _ h

theorem Shrinks.sor {p q : PRule A} (hp : Shrinks p) (hq : Shrinks q) : Shrinks (Peg.sor p q) := fun s r l h => by
  rcases sor_inv h with h | ⟨l1, l2, -, h, -⟩
  · exact hp _ _ _ h
  · exact hq _ _ _ h

theorem Sub.act {a : A} {p : PRule A} (hp : Sub p) : Sub (act a p) := fun s r l h => by
  obtain ⟨k, h, -⟩ := act_inv h; exact hp _ _ _ h

theorem Shrinks.act {a : A} {p : PRule A} (hp : Shrinks p) : Shrinks (Peg.act a p) := fun s r l h => by
  obtain ⟨k, h, -⟩ := act_inv h; exact hp _ _ _ h

theorem Sub.actOn {f : String → A} {p : PRule A} (hp : Sub p) : Sub (actOn f p) := fun s r l h => by
  obtain ⟨k, h, -⟩ := actOn_inv h; exact hp _ _ _ h

theorem Shrinks.actOn {f : String → A} {p : PRule A} (hp : Shrinks p) : Shrinks (Peg.actOn f p) := fun s r l h => by
  obtain ⟨k, h, -⟩ := actOn_inv h; exact hp _ _ _ h

theorem Sub.must {p : PRule A} (hp : Sub p) : Sub (must p) := fun s r l h => hp _ _ _ (must_inv h)

theorem Shrinks.must {p : PRule A} (hp : Shrinks p) : Shrinks (Peg.must p) := fun s r l h => hp _ _ _ (must_inv h)

theorem Sub.opt {p : PRule A} (hp : Sub p) : Sub (opt p) := fun s r l h => by
  rcases opt_inv h with h | ⟨rfl, -⟩
  · exact hp _ _ _ h
  · exact List.suffix_refl _

theorem Sub.star {p : PRule A} (hs : Shrinks p) (hp : Sub p) : Sub (star p) := fun s r l h =>
  star_ind hs (Q := fun s r _ => r <:+ s) (fun s _ _ => List.suffix_refl s)
    (fun s m r l l' h1 _ h2 => h2.trans (hp _ _ _ h1)) s r l h

theorem Sub.pad {p q : PRule A} (hp : Sub p) (hs : Shrinks q) (hq : Sub q) : Sub (pad p q) :=
  (Sub.star hs hq).seq (hp.seq (Sub.star hs hq))

theorem Shrinks.pad {p q : PRule A} (hp : Shrinks p) (hs : Shrinks q) (hq : Sub q) : Shrinks (Peg.pad p q) :=
  Shrinks.seq_right (Sub.star hs hq) (Shrinks.seq_left hp (Sub.star hs hq))

theorem Sub.eof : Sub (eof (A := A)) := fun s r l h => by
  cases s with
  | nil => simp only [Peg.eof, Peg.ok.injEq] at h; rw [← h.1]; exact List.suffix_refl _
  | cons c t => simp [Peg.eof] at h

theorem untilEolf_ok (s : List Char) : ∃ r, untilEolf (A := A) s = .ok r [] ∧ r <:+ s := by
  fun_induction untilEolf (A := A) s with
  | case1 => exact ⟨[], rfl, List.suffix_refl _⟩
  | case2 r => exact ⟨r, rfl, List.suffix_cons _ _⟩
  | case3 r => exact ⟨r, rfl, (List.suffix_cons _ _).trans (List.suffix_cons _ _)⟩
  | case4 c r _ _ ih =>
    obtain ⟨t, h1, h2⟩ := ih
    exact ⟨t, h1, h2.trans (List.suffix_cons _ _)⟩

theorem sub_untilEolf : Sub (untilEolf (A := A)) := fun s r l h => by
  obtain ⟨t, h1, h2⟩ := untilEolf_ok (A := A) s
  rw [h1] at h; cases h; exact h2

/-- Up to the line feed. -/
theorem untilEolf_line {b s : List Char} (hb : '\n' ∉ b) : untilEolf (A := A) (b ++ '\n' :: s) = .ok s [] := by
  generalize ht : b ++ '\n' :: s = t
  fun_induction untilEolf (A := A) t generalizing b with
  | case1 => simp at ht
  | case2 r =>
    cases b with
    | nil => simp at ht; rw [ht]
    | cons c b => simp only [List.cons_append, List.cons.injEq] at ht; simp [ht.1] at hb
  | case3 r =>
    cases b with
    | nil => simp at ht
    | cons c b =>
      simp only [List.cons_append, List.cons.injEq] at ht
      cases b with
      | nil => simp at ht; rw [ht.2]
      | cons d b => simp only [List.cons_append, List.cons.injEq] at ht; simp [ht.2.1] at hb
  | case4 c r h1 h2 ih =>
    cases b with
    | nil => simp only [List.nil_append, List.cons.injEq] at ht; exact absurd ht.1.symm (by intro h; exact h1 h)
    | cons d b =>
      simp only [List.cons_append, List.cons.injEq] at ht
      exact ih (fun h => hb (List.mem_cons_of_mem _ h)) ht.2

theorem untilEolf_end {b : List Char} (hb : '\n' ∉ b) : untilEolf (A := A) b = .ok [] [] := by
  fun_induction untilEolf (A := A) b with
  | case1 => rfl
  | case2 r => simp at hb
  | case3 r => simp at hb
  | case4 c r h1 h2 ih => exact ih (fun h => hb (List.mem_cons_of_mem _ h))

end Verif.Peg
