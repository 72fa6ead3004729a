import Verif.Model.Dot
import Verif.Spec.Dot
import Verif.Proofs.Algorithms
import Verif.Proofs.Built
import Mathlib.Data.List.Perm.Subperm
import Mathlib.Data.List.Sort

/-!
# GraphViz output: the statements of the graph, and reading them back
-/

namespace Verif

theorem split_at {A : Type} {c : A} : ∀ {a b x y : List A}, c ∉ a → c ∉ b → a ++ c :: x = b ++ c :: y → a = b ∧ x = y
  | [], [], x, y, _, _, h => ⟨rfl, by simpa using h⟩
  | [], d :: b, x, y, _, hb, h => by
    rw [List.nil_append, List.cons_append, List.cons.injEq] at h
    exact absurd (by rw [h.1]; simp) hb
  | d :: a, [], x, y, ha, _, h => by
    rw [List.nil_append, List.cons_append, List.cons.injEq] at h
    exact absurd (by rw [h.1]; simp) ha
  | d :: a, e :: b, x, y, ha, hb, h => by
    rw [List.cons_append, List.cons_append, List.cons.injEq] at h
    obtain ⟨h1, h2⟩ := split_at (fun hc => ha (by simp [hc])) (fun hc => hb (by simp [hc])) h.2
    exact ⟨by rw [h.1, h1], h2⟩

namespace DotStmt

theorem lit1 : " [shape=doublecircle];\n".toList = ' ' :: '[' :: 's' :: 'h' :: 'a' :: 'p' :: 'e' :: '=' :: 'd' :: "oublecircle];\n".toList := by decide
theorem lit2 : " [shape=circle];\n".toList = ' ' :: '[' :: 's' :: 'h' :: 'a' :: 'p' :: 'e' :: '=' :: 'c' :: "ircle];\n".toList := by decide
theorem lit3 : " -> ".toList = [' ', '-', '>', ' '] := by decide
theorem lit4 : " [ label=".toList = ' ' :: '[' :: ' ' :: "label=".toList := by decide
theorem lit5 : ";\n".toList = [';', '\n'] := by decide
theorem lit6 : " [style=invisible];\n".toList = ' ' :: '[' :: 's' :: 't' :: "yle=invisible];\n".toList := by decide

theorem text_inj {x y : DotStmt} {r r' : List Char} (hx : x.Safe) (hy : y.Safe) (h : x.text ++ r = y.text ++ r') : x = y ∧ r = r' := by
  have split : ∀ {a b u v : List Char}, '"' ∉ a → '"' ∉ b → quoted a ++ u = quoted b ++ v → a = b ∧ u = v := by
    intro a b u v ha hb h
    unfold quoted at h
    simp only [List.cons_append, List.append_assoc, List.nil_append, List.cons.injEq, true_and] at h
    exact split_at ha hb h
  cases x <;> cases y <;> simp only [text, Safe, List.append_assoc] at h hx hy
  case node.node n d n' d' =>
    obtain ⟨rfl, h2⟩ := split hx hy h
    cases d <;> cases d' <;> simp [lit1, lit2] at h2 <;> simp [h2]
  case node.edge n d a b l =>
    obtain ⟨-, h2⟩ := split hx hy.1 h
    cases d <;> simp [lit1, lit2, lit3] at h2
  case node.arrow n d a b =>
    obtain ⟨-, h2⟩ := split hx hy.1 h
    cases d <;> simp [lit1, lit2, lit3] at h2
  case node.hidden n d n' =>
    obtain ⟨-, h2⟩ := split hx hy h
    cases d <;> simp [lit1, lit2, lit6] at h2
  case edge.node a b l n d =>
    obtain ⟨-, h2⟩ := split hx.1 hy h
    cases d <;> simp [lit1, lit2, lit3] at h2
  case edge.edge a b l a' b' l' =>
    obtain ⟨rfl, h2⟩ := split hx.1 hy.1 h
    obtain ⟨rfl, h3⟩ := split hx.2.1 hy.2.1 (List.append_cancel_left h2)
    obtain ⟨rfl, h4⟩ := split hx.2.2 hy.2.2 (List.append_cancel_left h3)
    exact ⟨rfl, List.append_cancel_left h4⟩
  case edge.arrow a b l a' b' =>
    obtain ⟨rfl, h2⟩ := split hx.1 hy.1 h
    obtain ⟨rfl, h3⟩ := split hx.2.1 hy.2 (List.append_cancel_left h2)
    simp [lit4, lit5] at h3
  case edge.hidden a b l n =>
    obtain ⟨-, h2⟩ := split hx.1 hy h
    simp [lit3, lit6] at h2
  case arrow.node a b n d =>
    obtain ⟨-, h2⟩ := split hx.1 hy h
    cases d <;> simp [lit1, lit2, lit3] at h2
  case arrow.edge a b a' b' l =>
    obtain ⟨rfl, h2⟩ := split hx.1 hy.1 h
    obtain ⟨rfl, h3⟩ := split hx.2 hy.2.1 (List.append_cancel_left h2)
    simp [lit4, lit5] at h3
  case arrow.arrow a b a' b' =>
    obtain ⟨rfl, h2⟩ := split hx.1 hy.1 h
    obtain ⟨rfl, h3⟩ := split hx.2 hy.2 (List.append_cancel_left h2)
    exact ⟨rfl, List.append_cancel_left h3⟩
  case arrow.hidden a b n =>
    obtain ⟨-, h2⟩ := split hx.1 hy h
    simp [lit3, lit6] at h2
  case hidden.node n n' d =>
    obtain ⟨-, h2⟩ := split hx hy h
    cases d <;> simp [lit1, lit2, lit6] at h2
  case hidden.edge n a b l =>
    obtain ⟨-, h2⟩ := split hx hy.1 h
    simp [lit3, lit6] at h2
  case hidden.arrow n a b =>
    obtain ⟨-, h2⟩ := split hx hy.1 h
    simp [lit3, lit6] at h2
  case hidden.hidden n n' =>
    obtain ⟨rfl, h2⟩ := split hx hy h
    exact ⟨rfl, List.append_cancel_left h2⟩

theorem text_head (x : DotStmt) : ∃ t, x.text = '"' :: t := by
  cases x <;> exact ⟨_, rfl⟩

theorem list_inj : ∀ {xs ys : List DotStmt}, (∀ x ∈ xs, x.Safe) → (∀ y ∈ ys, y.Safe) →
    xs.flatMap text ++ "}\n".toList = ys.flatMap text ++ "}\n".toList → xs = ys
  | [], [], _, _, _ => rfl
  | [], y :: ys, _, _, h => by
    obtain ⟨t, ht⟩ := text_head y
    have : "}\n".toList = ['}', '\n'] := by decide
    rw [List.flatMap_cons, ht, this] at h
    simp at h
  | x :: xs, [], _, _, h => by
    obtain ⟨t, ht⟩ := text_head x
    have : "}\n".toList = ['}', '\n'] := by decide
    rw [List.flatMap_cons, ht, this] at h
    simp at h
  | x :: xs, y :: ys, hx, hy, h => by
    rw [List.flatMap_cons, List.flatMap_cons, List.append_assoc, List.append_assoc] at h
    obtain ⟨rfl, h2⟩ := text_inj (hx x (by simp)) (hy y (by simp)) h
    rw [list_inj (fun x h => hx x (by simp [h])) (fun y h => hy y (by simp [h])) h2]

end DotStmt

/-! ## Lists with commas -/

theorem commaList_inj : ∀ {l l' : List (List Char)} {x y : List Char}, ',' ∉ x → ',' ∉ y → (∀ z ∈ l, ',' ∉ z) → (∀ z ∈ l', ',' ∉ z) →
    x ++ (l.flatMap fun y => ',' :: ' ' :: y) = y ++ (l'.flatMap fun y => ',' :: ' ' :: y) → x = y ∧ l = l'
  | [], [], x, y, _, _, _, _, h => ⟨by simpa using h, rfl⟩
  | [], b :: l', x, y, hx, _, _, _, h => by
    rw [List.flatMap_nil, List.append_nil] at h
    rw [h] at hx
    exact absurd (by simp) hx
  | a :: l, [], x, y, _, hy, _, _, h => by
    rw [List.flatMap_nil, List.append_nil] at h
    rw [← h] at hy
    exact absurd (by simp) hy
  | a :: l, b :: l', x, y, hx, hy, hl, hl', h => by
    simp only [List.flatMap_cons, List.cons_append] at h
    obtain ⟨rfl, h2⟩ := split_at hx hy h
    rw [List.cons.injEq] at h2
    obtain ⟨rfl, rfl⟩ := commaList_inj (hl a (by simp)) (hl' b (by simp)) (fun z hz => hl z (by simp [hz])) (fun z hz => hl' z (by simp [hz])) h2.2
    exact ⟨rfl, rfl⟩

theorem blankList_inj : ∀ {l l' : List (List Char)} {x y : List Char}, ' ' ∉ x → ' ' ∉ y → (∀ z ∈ l, ' ' ∉ z) → (∀ z ∈ l', ' ' ∉ z) →
    x ++ (l.flatMap fun y => ',' :: ' ' :: y) = y ++ (l'.flatMap fun y => ',' :: ' ' :: y) → x = y ∧ l = l'
  | [], [], x, y, _, _, _, _, h => ⟨by simpa using h, rfl⟩
  | [], b :: l', x, y, hx, _, _, _, h => by
    rw [List.flatMap_nil, List.append_nil] at h
    rw [h] at hx
    exact absurd (by simp) hx
  | a :: l, [], x, y, _, hy, _, _, h => by
    rw [List.flatMap_nil, List.append_nil] at h
    rw [← h] at hy
    exact absurd (by simp) hy
  | a :: l, b :: l', x, y, hx, hy, hl, hl', h => by
    simp only [List.flatMap_cons, List.cons_append] at h
    rw [List.append_cons x, List.append_cons y] at h
    obtain ⟨h1, h2⟩ := split_at (a := x ++ [',']) (b := y ++ [',']) (by simpa using hx) (by simpa using hy) h
    obtain ⟨rfl, rfl⟩ := blankList_inj (hl a (by simp)) (hl' b (by simp)) (fun z hz => hl z (by simp [hz])) (fun z hz => hl' z (by simp [hz])) h2
    exact ⟨List.append_cancel_right h1, rfl⟩

theorem commaList_eq {c : Char} (hc : c = ',' ∨ c = ' ') {l l' : List (List Char)} (hne : l ≠ []) (hne' : l' ≠ []) (hl : ∀ z ∈ l, c ∉ z) (hl' : ∀ z ∈ l', c ∉ z)
    (h : commaList l = commaList l') : l = l' := by
  obtain ⟨x, l, rfl⟩ := List.exists_cons_of_ne_nil hne
  obtain ⟨y, l', rfl⟩ := List.exists_cons_of_ne_nil hne'
  rcases hc with rfl | rfl
  · obtain ⟨rfl, rfl⟩ := commaList_inj (hl x (by simp)) (hl' y (by simp)) (fun z hz => hl z (by simp [hz])) (fun z hz => hl' z (by simp [hz])) h
    rfl
  · obtain ⟨rfl, rfl⟩ := blankList_inj (hl x (by simp)) (hl' y (by simp)) (fun z hz => hl z (by simp [hz])) (fun z hz => hl' z (by simp [hz])) h
    rfl

theorem mem_commaList {c : Char} {l : List (List Char)} (h : c ∈ commaList l) : c = ',' ∨ c = ' ' ∨ ∃ x ∈ l, c ∈ x := by
  cases l with
  | nil => cases h
  | cons x l =>
    unfold commaList at h
    rcases List.mem_append.1 h with h | h
    · exact .inr (.inr ⟨x, by simp, h⟩)
    · obtain ⟨y, hy, h⟩ := List.mem_flatMap.1 h
      rcases List.mem_cons.1 h with rfl | h
      · exact .inl rfl
      · rcases List.mem_cons.1 h with rfl | h
        · exact .inr (.inl rfl)
        · exact .inr (.inr ⟨y, by simp [hy], h⟩)

/-! ## The labels of NFA edges -/

theorem lit_open : "\\[".toList = ['\\', '['] := by decide
theorem lit_close : "\\]".toList = ['\\', ']'] := by decide

theorem map_inj_on {A B : Type} {f : A → B} : ∀ {l l' : List A}, (∀ x ∈ l, ∀ y ∈ l', f x = f y → x = y) → l.map f = l'.map f → l = l'
  | [], [], _, _ => rfl
  | [], _ :: _, _, h => by cases h
  | _ :: _, [], _, h => by cases h
  | x :: l, y :: l', hf, h => by
    rw [List.map_cons, List.map_cons, List.cons.injEq] at h
    rw [hf x (by simp) y (by simp) h.1, map_inj_on (fun a ha b hb => hf a (by simp [ha]) b (by simp [hb])) h.2]

theorem NEdge.dotLabel_inj {sym : Nat → List Char} {e e' : NEdge} {c : Char} (hc : c = ',' ∨ c = ' ') (hs : ∀ l, c ∉ sym l ∧ '\\' ∉ sym l) (hi : Function.Injective sym)
    (hd : e.dst = e'.dst) (h : e.dotLabel sym = e'.dotLabel sym) : e = e' := by
  obtain ⟨eps, neg, syms, dst⟩ := e
  obtain ⟨eps', neg', syms', dst'⟩ := e'
  obtain rfl : dst = dst' := hd
  have hbs : ∀ l : List Nat, '\\' ∉ commaList (l.map sym) := by
    intro l hl
    rcases mem_commaList hl with h | h | ⟨x, hx, h⟩
    · cases h
    · cases h
    · obtain ⟨y, -, rfl⟩ := List.mem_map.1 hx
      exact (hs y).2 h
  have hlist : ∀ {l l' : List Nat} {u v : List Char}, l ≠ [] → l' ≠ [] →
      commaList (l.map sym) ++ '\\' :: u = commaList (l'.map sym) ++ '\\' :: v → l = l' ∧ u = v := by
    intro l l' u v hl hl' h
    obtain ⟨h1, h2⟩ := split_at (hbs l) (hbs l') h
    have := commaList_eq hc (by simpa using hl) (by simpa using hl') (fun z hz => by obtain ⟨y, -, rfl⟩ := List.mem_map.1 hz; exact (hs y).1)
      (fun z hz => by obtain ⟨y, -, rfl⟩ := List.mem_map.1 hz; exact (hs y).1) h1
    exact ⟨List.map_injective_iff.2 hi this, h2⟩
  unfold NEdge.dotLabel at h
  simp only [lit_open, lit_close] at h
  cases syms with
  | nil =>
    cases syms' with
    | nil => cases neg <;> cases neg' <;> cases eps <;> cases eps' <;> simp at h <;> rfl
    | cons s l => cases neg <;> cases neg' <;> cases eps <;> cases eps' <;> simp at h
  | cons s l =>
    cases syms' with
    | nil => cases neg <;> cases neg' <;> cases eps <;> cases eps' <;> simp at h
    | cons s' l' =>
      have key : neg = neg' ∧ ∃ u v, (commaList ((s :: l).map sym) ++ '\\' :: u = commaList ((s' :: l').map sym) ++ '\\' :: v) ∧
          u = ']' :: (if eps then [' ', '𝜀'] else []) ∧ v = ']' :: (if eps' then [' ', '𝜀'] else []) := by
        cases neg <;> cases neg' <;> cases eps <;> cases eps' <;> simp at h <;> exact ⟨rfl, _, _, by simpa using h, rfl, rfl⟩
      obtain ⟨rfl, u, v, h1, rfl, rfl⟩ := key
      obtain ⟨h2, h3⟩ := hlist (by simp) (by simp) h1
      rw [h2]
      cases eps <;> cases eps' <;> simp at h3 <;> rfl

/-! ## The labels of P-automaton edges -/

section Label
variable {W : Type}

/-- The texts can be read back: nothing contains a quote, items contain no comma and no backslash, and different labels and weights have different
texts. If `*` is used there is one weight only. -/
structure DotStyle.Readable (s : DotStyle W) (n : Nat) : Prop where
  state : ∀ q, '"' ∉ s.state q
  item : ∀ l w, '"' ∉ s.item l w ∧ '\\' ∉ s.item l w
  sep : ∃ c, (c = ',' ∨ c = ' ') ∧ ∀ l w, c ∉ s.item l w
  itemInj : ∀ l < n, ∀ l' < n, ∀ w w', s.item l w = s.item l' w' → l = l' ∧ w = w'
  eps : ∀ w, '"' ∉ s.eps w
  epsInj : ∀ w w', s.eps w = s.eps w' → w = w'
  all : s.all = none ∨ (s.all = some n ∧ ∀ w w' : W, w = w')

/-- The part of the label before the epsilon. -/
def DotStyle.core (s : DotStyle W) (k : List (Nat × W)) : List Char :=
  if s.all = some k.length then ['*']
  else if 0 < k.length then "\\[".toList ++ commaList (k.map fun x => s.item x.1 x.2) ++ "\\]".toList
  else []

/-- The part for the epsilon. -/
def DotStyle.tail (s : DotStyle W) (k : List (Nat × W)) : Option (Nat × W) → List Char
  | none => []
  | some x => (if 0 < k.length then [' '] else []) ++ ['𝜀'] ++ s.eps x.2

/-- Sorted by label, without duplicates, all labels epsilon or less than `n`. -/
structure LabelsOK (n : Nat) (ls : List (Nat × W)) : Prop where
  sorted : ls.Pairwise fun x y => x.1 < y.1
  lt : ∀ x ∈ ls, x.1 < n ∨ x.1 = epsilon

theorem labels_length : ∀ {ls : List (Nat × W)}, ls.Pairwise (fun x y => x.1 < y.1) →
    ls.length = (ls.filter fun x => x.1 != epsilon).length + if (ls.find? fun x => x.1 == epsilon).isSome then 1 else 0
  | [], _ => rfl
  | x :: l, h => by
    rw [List.pairwise_cons] at h
    have ih := labels_length h.2
    by_cases hx : x.1 = epsilon
    · have h1 : (l.filter fun x => x.1 != epsilon) = l := by
        rw [List.filter_eq_self]
        intro y hy
        have := h.1 y hy
        simp only [bne_iff_ne, ne_eq]
        omega
      simp [hx, h1]
    · have h1 : ((x :: l).find? fun x => x.1 == epsilon) = l.find? fun x => x.1 == epsilon := List.find?_cons_of_neg (by simpa using hx)
      rw [h1, List.filter_cons_of_pos (by simpa using hx), List.length_cons, List.length_cons, ih]
      omega

theorem DotStyle.label_eq (s : DotStyle W) {ls : List (Nat × W)} (h : ls.Pairwise fun x y => x.1 < y.1) :
    s.label ls = s.core (ls.filter fun x => x.1 != epsilon) ++ s.tail (ls.filter fun x => x.1 != epsilon) (ls.find? fun x => x.1 == epsilon) := by
  have hl := labels_length h
  have hany : (ls.any fun x => x.1 == epsilon) = (ls.find? fun x => x.1 == epsilon).isSome := by
    rw [Bool.eq_iff_iff, List.any_eq_true, List.find?_isSome]
  have hsize : ls.length - (if (ls.any fun x => x.1 == epsilon) then 1 else 0) = (ls.filter fun x => x.1 != epsilon).length := by
    rw [hany, hl]
    split <;> omega
  unfold DotStyle.label DotStyle.core DotStyle.tail
  simp only [hsize]
  congr 1
  cases he : ls.find? fun x => x.1 == epsilon with
  | none => rfl
  | some x =>
    rw [he] at hl
    simp only [Option.isSome_some, if_true] at hl
    simp only []
    have : (1 < ls.length) ↔ 0 < (ls.filter fun x => x.1 != epsilon).length := by omega
    rw [if_congr this rfl rfl]

theorem DotStyle.tail_head (s : DotStyle W) (k : List (Nat × W)) (x : Option (Nat × W)) :
    s.tail k x = [] ∨ ∃ c t, s.tail k x = c :: t ∧ (c = ' ' ∨ c = '𝜀') := by
  cases x with
  | none => exact .inl rfl
  | some x =>
    right
    unfold DotStyle.tail
    simp only []
    split
    · exact ⟨_, _, rfl, .inl rfl⟩
    · exact ⟨_, _, rfl, .inr rfl⟩

/-- A sorted list of `n` numbers less than `n`. -/
theorem eq_range {l : List Nat} {n : Nat} (hs : l.Pairwise (· < ·)) (hl : ∀ x ∈ l, x < n) (hn : l.length = n) : l = List.range n := by
  have h1 : l.Nodup := hs.imp (fun h => by omega)
  have h2 : l.Perm (List.range n) :=
    (List.subperm_of_subset h1 (fun x hx => List.mem_range.2 (hl x hx))).perm_of_length_le (by rw [List.length_range, hn])
  exact List.Perm.eq_of_pairwise (le := (· < ·)) (fun a b _ _ h1 h2 => by omega) hs List.pairwise_lt_range h2

theorem DotStyle.core_inj {s : DotStyle W} {n : Nat} (hs : s.Readable n) {k k' : List (Nat × W)} (hk : k.Pairwise fun x y => x.1 < y.1)
    (hk' : k'.Pairwise fun x y => x.1 < y.1) (hl : ∀ x ∈ k, x.1 < n) (hl' : ∀ x ∈ k', x.1 < n) {x x' : Option (Nat × W)}
    (h : s.core k ++ s.tail k x = s.core k' ++ s.tail k' x') : k = k' ∧ s.tail k x = s.tail k' x' := by
  have hbs : ∀ l : List (Nat × W), '\\' ∉ commaList (l.map fun x => s.item x.1 x.2) := by
    intro l hl
    rcases mem_commaList hl with h | h | ⟨x, hx, h⟩
    · cases h
    · cases h
    · obtain ⟨y, -, rfl⟩ := List.mem_map.1 hx
      exact (hs.item _ _).2 h
  obtain ⟨c, hc, hsep⟩ := hs.sep
  have hcm : ∀ l : List (Nat × W), ∀ z ∈ (l.map fun x => s.item x.1 x.2), c ∉ z := by
    intro l z hz
    obtain ⟨y, -, rfl⟩ := List.mem_map.1 hz
    exact hsep _ _
  have h1 := s.tail_head k x
  have h2 := s.tail_head k' x'
  unfold DotStyle.core at h
  by_cases a1 : s.all = some k.length
  · rw [if_pos a1] at h
    by_cases a2 : s.all = some k'.length
    · rw [if_pos a2] at h
      rcases hs.all with ha | ⟨ha, hw⟩
      · rw [ha] at a1; cases a1
      · rw [ha] at a1 a2
        have e1 := eq_range (l := k.map Prod.fst) (n := n) (List.pairwise_map.2 hk) (by intro y hy; obtain ⟨z, hz, rfl⟩ := List.mem_map.1 hy; exact hl z hz)
          (by rw [List.length_map]; exact (Option.some.inj a1).symm)
        have e2 := eq_range (l := k'.map Prod.fst) (n := n) (List.pairwise_map.2 hk') (by intro y hy; obtain ⟨z, hz, rfl⟩ := List.mem_map.1 hy; exact hl' z hz)
          (by rw [List.length_map]; exact (Option.some.inj a2).symm)
        refine ⟨map_inj_on (f := Prod.fst) (fun y _ z _ hyz => Prod.ext hyz (hw _ _)) (e1.trans e2.symm), ?_⟩
        simpa using h
    · rw [if_neg a2] at h
      split at h
      · simp [lit_open] at h
      · rcases h2 with h2 | ⟨c, t, h2, hc⟩
        · rw [h2] at h; simp at h
        · rw [h2] at h
          simp at h
          rcases hc with rfl | rfl
          · exact absurd h.1 (by decide)
          · exact absurd h.1 (by decide)
  · rw [if_neg a1] at h
    by_cases a2 : s.all = some k'.length
    · rw [if_pos a2] at h
      split at h
      · simp [lit_open] at h
      · rcases h1 with h1 | ⟨c, t, h1, hc⟩
        · rw [h1] at h; simp at h
        · rw [h1] at h
          simp at h
          rcases hc with rfl | rfl
          · exact absurd h.1 (by decide)
          · exact absurd h.1 (by decide)
    · rw [if_neg a2] at h
      by_cases b1 : 0 < k.length
      · rw [if_pos b1] at h
        by_cases b2 : 0 < k'.length
        · rw [if_pos b2] at h
          simp only [lit_open, lit_close, List.append_assoc, List.cons_append, List.nil_append, List.cons.injEq, true_and] at h
          obtain ⟨c1, c2⟩ := split_at (hbs k) (hbs k') h
          have c3 := commaList_eq hc (by intro he; rw [List.map_eq_nil_iff.1 he] at b1; simp at b1) (by intro he; rw [List.map_eq_nil_iff.1 he] at b2; simp at b2) (hcm k) (hcm k') c1
          refine ⟨map_inj_on (fun y hy z hz hyz => ?_) c3, by simpa using c2⟩
          obtain ⟨d1, d2⟩ := hs.itemInj _ (hl y hy) _ (hl' z hz) _ _ hyz
          exact Prod.ext d1 d2
        · rw [if_neg b2] at h
          rcases h2 with h2 | ⟨c, t, h2, hc⟩
          · rw [h2] at h; simp [lit_open] at h
          · rw [h2] at h
            simp [lit_open] at h
            rcases hc with rfl | rfl
            · exact absurd h.1 (by decide)
            · exact absurd h.1 (by decide)
      · rw [if_neg b1] at h
        by_cases b2 : 0 < k'.length
        · rw [if_pos b2] at h
          rcases h1 with h1 | ⟨c, t, h1, hc⟩
          · rw [h1] at h; simp [lit_open] at h
          · rw [h1] at h
            simp [lit_open] at h
            rcases hc with rfl | rfl
            · exact absurd h.1 (by decide)
            · exact absurd h.1 (by decide)
        · rw [if_neg b2] at h
          have e1 : k = [] := List.eq_nil_of_length_eq_zero (by omega)
          have e2 : k' = [] := List.eq_nil_of_length_eq_zero (by omega)
          exact ⟨by rw [e1, e2], by simpa using h⟩

theorem DotStyle.label_inj {s : DotStyle W} {n : Nat} (hs : s.Readable n) {ls ls' : List (Nat × W)} (hl : LabelsOK n ls) (hl' : LabelsOK n ls')
    (h : s.label ls = s.label ls') : ∀ x, x ∈ ls ↔ x ∈ ls' := by
  rw [s.label_eq hl.sorted, s.label_eq hl'.sorted] at h
  have hlt : ∀ {ls : List (Nat × W)}, LabelsOK n ls → ∀ x ∈ ls.filter (fun x => x.1 != epsilon), x.1 < n := by
    intro ls hl x hx
    obtain ⟨h1, h2⟩ := List.mem_filter.1 hx
    rcases hl.lt x h1 with h | h
    · exact h
    · simp [h] at h2
  obtain ⟨h1, h2⟩ := DotStyle.core_inj hs (hl.sorted.filter _) (hl'.sorted.filter _) (hlt hl) (hlt hl') h
  rw [← h1] at h2
  have hE : (ls.find? fun x => x.1 == epsilon) = ls'.find? fun x => x.1 == epsilon := by
    cases a : ls.find? fun x => x.1 == epsilon with
    | none =>
      cases b : ls'.find? fun x => x.1 == epsilon with
      | none => rfl
      | some y =>
        rw [a, b] at h2
        unfold DotStyle.tail at h2
        simp at h2
    | some x =>
      cases b : ls'.find? fun x => x.1 == epsilon with
      | none =>
        rw [a, b] at h2
        unfold DotStyle.tail at h2
        simp at h2
      | some y =>
        rw [a, b] at h2
        unfold DotStyle.tail at h2
        have h3 := hs.epsInj _ _ (List.append_cancel_left h2)
        have hx := List.find?_some a
        have hy := List.find?_some b
        simp only [beq_iff_eq] at hx hy
        exact congrArg some (Prod.ext (hx.trans hy.symm) h3)
  have key : ∀ {ls : List (Nat × W)}, ls.Pairwise (fun x y => x.1 < y.1) → ∀ x, x ∈ ls ↔ x ∈ ls.filter (fun x => x.1 != epsilon) ∨ ls.find? (fun x => x.1 == epsilon) = some x := by
    intro ls hp x
    constructor
    · intro hx
      by_cases he : x.1 = epsilon
      · right
        cases a : ls.find? fun x => x.1 == epsilon with
        | none => exact absurd he (by simpa using List.find?_eq_none.1 a x hx)
        | some y =>
          have hy := List.find?_some a
          have hm := List.mem_of_find?_eq_some a
          simp only [beq_iff_eq] at hy
          by_contra hne
          have hne' : y ≠ x := fun h => hne (by rw [h])
          rcases List.Pairwise.forall_of_forall_of_flip (R := fun x y : Nat × W => x ≠ y → x.1 ≠ y.1) (l := ls) (fun _ _ h => absurd rfl h)
            (hp.imp fun h _ => by omega) (hp.imp fun h _ => by omega) hm hx hne' (hy.trans he.symm)
      · exact .inl (List.mem_filter.2 ⟨hx, by simpa using he⟩)
    · rintro (h | h)
      · exact (List.mem_filter.1 h).1
      · exact List.mem_of_find?_eq_some h
  intro x
  rw [key hl.sorted, key hl'.sorted, h1, hE]

theorem DotStyle.label_safe {s : DotStyle W} {n : Nat} (hs : s.Readable n) (ls : List (Nat × W)) : '"' ∉ s.label ls := by
  intro h
  unfold DotStyle.label at h
  simp only [] at h
  generalize ls.length - (if (ls.any fun x => x.1 == epsilon) = true then 1 else 0) = size at h
  rcases List.mem_append.1 h with h | h
  · split at h
    · simp at h
    · split at h
      · simp only [lit_open, lit_close, List.mem_append, List.mem_cons, List.not_mem_nil, or_false] at h
        rcases h with ((h | h) | h) | h
        · exact absurd h (by decide)
        · exact absurd h (by decide)
        · rcases mem_commaList h with h | h | ⟨x, hx, h⟩
          · exact absurd h (by decide)
          · exact absurd h (by decide)
          · obtain ⟨y, -, rfl⟩ := List.mem_map.1 hx
            exact (hs.item _ _).1 h
        · rcases h with h | h
          · exact absurd h (by decide)
          · exact absurd h (by decide)
      · cases h
  · split at h
    · cases h
    · rcases List.mem_append.1 h with h | h
      · rcases List.mem_append.1 h with h | h
        · split at h
          · simp at h
          · cases h
        · simp at h
      · exact hs.eps _ h

end Label

end Verif
