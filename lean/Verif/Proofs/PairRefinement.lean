import Verif.Model.Refinement
import Verif.Proofs.Algorithms
import Verif.Props.Utils
import Mathlib.Data.Prod.Lex

/-! # `make_pair_refinement` -/

namespace Verif

section
variable {A B U T : Type} [LinearOrder A] [LinearOrder B] [LinearOrder U]

/-! ## Sorted pairs -/

theorem pairLt_eq : (pairLt : A × B → A × B → Bool) = keyLt (K := A ×ₗ B) toLex := by
  funext x y
  unfold pairLt keyLt
  rw [Bool.eq_iff_iff]
  simp only [Bool.or_eq_true, Bool.and_eq_true, decide_eq_true_eq, Bool.not_eq_true', decide_eq_false_iff_not,
    Prod.Lex.toLex_lt_toLex]
  constructor
  · rintro (h | ⟨h1, h2⟩)
    · exact .inl h
    · rcases lt_or_eq_of_le (not_lt.1 h1) with h | h
      · exact .inl h
      · exact .inr ⟨h, h2⟩
  · rintro (h | ⟨h1, h2⟩)
    · exact .inl h
    · exact .inr ⟨by rw [h1]; exact lt_irrefl _, h2⟩

/-- The order of `std::pair`. -/
def PairSorted (l : List (A × B)) : Prop := l.Pairwise fun x y => x.1 < y.1 ∨ (x.1 = y.1 ∧ x.2 ≤ y.2)

theorem sortPairs (l : List (A × B)) : PairSorted (sortBy pairLt l) := by
  rw [pairLt_eq]
  refine (sortBy_sorted (K := A ×ₗ B) toLex l).imp ?_
  intro x y h
  rwa [Prod.Lex.toLex_le_toLex] at h

theorem PairSorted.fst {l : List (A × B)} (h : PairSorted l) : Incr (l.map Prod.fst) := by
  unfold PairSorted at h
  rw [Incr, List.pairwise_map]
  exact h.imp fun h => h.elim le_of_lt fun h => le_of_eq h.1

/-! ## `pushNew` -/

theorem pushNew_fold (l : List T) [LinearOrder T] (h : Incr l) (v : List T) :
    ∃ t, l.foldl pushNew v = v ++ t ∧ Strict t ∧ (∀ x ∈ t, x ∈ l) ∧ (∀ x ∈ l, x ∈ v ++ t) ∧
      ∀ a, v.getLast? = some a → (∀ x ∈ l, a ≤ x) → ∀ x ∈ t, a < x := by
  induction l generalizing v with
  | nil => exact ⟨[], by simp, List.Pairwise.nil, by simp, by simp, by simp⟩
  | cons a l ih =>
    rw [Incr, List.pairwise_cons] at h
    rw [List.foldl_cons]
    unfold pushNew
    by_cases he : v.getLast? = some a
    · rw [if_pos he]
      obtain ⟨t, h1, h2, h3, h4, h5⟩ := ih h.2 v
      refine ⟨t, h1, h2, fun x hx => by simp [h3 x hx], fun x hx => ?_, fun b hb hl => h5 b hb fun x hx => hl x (by simp [hx])⟩
      rcases List.mem_cons.1 hx with rfl | hx
      · exact List.mem_append_left _ (List.mem_of_getLast? he)
      · exact h4 x hx
    · rw [if_neg he]
      obtain ⟨t, h1, h2, h3, h4, h5⟩ := ih h.2 (v ++ [a])
      have h6 := h5 a (by simp) h.1
      refine ⟨a :: t, by rw [show (fun v x => if v.getLast? = some x then v else v ++ [x]) = (pushNew : List T → T → List T) from rfl]; rw [h1]; simp, ?_, fun x hx => ?_, fun x hx => ?_, fun b hb hl => ?_⟩
      · rw [Strict, List.pairwise_cons]; exact ⟨h6, h2⟩
      · rcases List.mem_cons.1 hx with rfl | hx
        · simp
        · simp [h3 x hx]
      · rcases List.mem_cons.1 hx with rfl | hx
        · simp
        · have := h4 x hx; simpa using this
      · have hba : b < a := lt_of_le_of_ne (hl a (by simp)) fun h => he (by rw [hb, h])
        intro x hx
        rcases List.mem_cons.1 hx with rfl | hx
        · exact hba
        · exact lt_trans hba (h6 x hx)

theorem pushNew_nil [LinearOrder T] (l : List T) (h : Incr l) :
    Strict (l.foldl pushNew []) ∧ ∀ x, x ∈ l.foldl pushNew [] ↔ x ∈ l := by
  obtain ⟨t, h1, h2, h3, h4, _⟩ := pushNew_fold l h []
  rw [h1]
  exact ⟨by simpa using h2, fun x => ⟨fun hx => h3 x (by simpa using hx), h4 x⟩⟩

/-! ## `BmatchA`, `As`, `AmatchB_bucket` -/

theorem range_eq_filter {l : List (A × B)} (h : Incr (l.map Prod.fst)) (a : A) :
    ((l.dropWhile fun x => decide (x.1 < a)).takeWhile fun x => !decide (a < x.1)) =
      l.filter fun x => decide (x.1 = a) := by
  induction l with
  | nil => rfl
  | cons x l ih =>
    rw [List.map_cons, Incr, List.pairwise_cons] at h
    rw [List.dropWhile_cons, List.filter_cons]
    by_cases h1 : x.1 < a
    · rw [if_pos (by simpa using h1), if_neg (by simpa using ne_of_lt h1)]
      exact ih h.2
    · rw [if_neg (by simpa using h1)]
      by_cases h2 : x.1 = a
      · rw [if_pos (by simpa using h2), List.takeWhile_cons, if_pos (by simp [h2]), ← ih h.2]
        congr 1
        cases l with
        | nil => rfl
        | cons y l =>
          rw [List.dropWhile_cons, if_neg]
          have := h.1 y.1 (by simp)
          simpa [h2] using this
      · rw [if_neg (by simpa using h2), List.takeWhile_cons,
          if_neg (by simpa using lt_of_le_of_ne (not_lt.1 h1) (Ne.symm h2))]
        symm
        rw [List.filter_eq_nil_iff]
        intro y hy
        have h3 := h.1 y.1 (List.mem_map_of_mem hy)
        have h4 : a < x.1 := lt_of_le_of_ne (not_lt.1 h1) (Ne.symm h2)
        simpa using ne_of_gt (lt_of_lt_of_le h4 h3)

theorem foldl_pushNew_map {S : Type} [DecidableEq T] (f : S → T) (l : List S) (v : List T) :
    l.foldl (fun v x => pushNew v (f x)) v = (l.map f).foldl pushNew v := by
  rw [List.foldl_map]

theorem bMatchA_spec {X : List (A × B)} (h : PairSorted X) (a : A) :
    Strict (bMatchA X a) ∧ ∀ b, b ∈ bMatchA X a ↔ (a, b) ∈ X := by
  unfold bMatchA
  rw [range_eq_filter h.fst, foldl_pushNew_map]
  have hs : Incr ((X.filter fun x => decide (x.1 = a)).map Prod.snd) := by
    rw [Incr, List.pairwise_map]
    have h1 : (X.filter fun x => decide (x.1 = a)).Pairwise fun x y => x.1 < y.1 ∨ (x.1 = y.1 ∧ x.2 ≤ y.2) :=
      List.Pairwise.sublist List.filter_sublist h
    refine h1.imp_of_mem fun {x y} hx hy h => ?_
    have hx : x.1 = a := by simpa using (List.mem_filter.1 hx).2
    have hy : y.1 = a := by simpa using (List.mem_filter.1 hy).2
    rcases h with h | h
    · rw [hx, hy] at h; exact absurd h (lt_irrefl _)
    · exact h.2
  obtain ⟨h1, h2⟩ := pushNew_nil _ hs
  refine ⟨h1, fun b => ?_⟩
  rw [h2, List.mem_map]
  constructor
  · rintro ⟨⟨a', b'⟩, hx, rfl⟩
    obtain ⟨hx', he⟩ := List.mem_filter.1 hx
    have : a' = a := by simpa using he
    subst this; exact hx'
  · intro hx
    exact ⟨(a, b), List.mem_filter.2 ⟨hx, by simp⟩, rfl⟩

theorem collectAs_spec {X Y : List (A × B)} (hX : PairSorted X) (hY : PairSorted Y) :
    Strict (collectAs X Y) ∧ ∀ a, a ∈ collectAs X Y ↔ (∃ b, (a, b) ∈ X) ∨ ∃ b, (a, b) ∈ Y := by
  unfold collectAs
  simp only
  simp only [foldl_pushNew_map Prod.fst]
  obtain ⟨h1, h2⟩ := pushNew_nil _ hX.fst
  generalize (X.map Prod.fst).foldl pushNew [] = as1 at h1 h2
  obtain ⟨t, h3, h4, h5, h6, _⟩ := pushNew_fold _ hY.fst as1
  rw [h3, List.take_left, List.drop_left]
  obtain ⟨h7, h8⟩ := uniqueBy_spec (mergeBy_incr h1.incr h4.incr)
  refine ⟨h7, fun a => ?_⟩
  rw [h8, mem_mergeBy, h2]
  have hmem : ∀ l : List (A × B), a ∈ l.map Prod.fst ↔ ∃ b, (a, b) ∈ l := by
    intro l; simp [List.mem_map]
  rw [hmem]
  constructor
  · rintro (h | h)
    · exact .inl h
    · exact .inr ((hmem Y).1 (h5 a h))
  · rintro (h | h)
    · exact .inl h
    · rcases List.mem_append.1 (h6 a ((hmem Y).2 h)) with h | h
      · exact .inl ((hmem X).1 ((h2 a).1 h))
      · exact .inr h

theorem bucketLookup_spec (as : List A) (m : List (A × Nat)) (ha : Strict as) (hm : Strict (m.map Prod.fst))
    (hsub : ∀ a ∈ as, ∃ k, (a, k) ∈ m) :
    ∃ l, bucketLookup as m = some l ∧ ∀ k, k ∈ l ↔ ∃ a ∈ as, (a, k) ∈ m := by
  induction as generalizing m with
  | nil => exact ⟨[], rfl, by simp⟩
  | cons a as ih =>
    rw [Strict, List.pairwise_cons] at ha
    obtain ⟨ka, hka⟩ := hsub a (by simp)
    obtain ⟨m1, m2, rfl⟩ := List.append_of_mem hka
    rw [List.map_append, List.map_cons, Strict, List.pairwise_append, List.pairwise_cons] at hm
    have hdw : (m1 ++ (a, ka) :: m2).dropWhile (fun x => decide (x.1 < a)) = (a, ka) :: m2 := by
      rw [List.dropWhile_append_of_pos]
      · rw [List.dropWhile_cons, if_neg (by simp)]
      · intro x hx
        simpa using hm.2.2 x.1 (List.mem_map_of_mem hx) a (by simp)
    have hlt : ∀ a' k, (a', k) ∈ m1 → a' < a := fun a' k h =>
      hm.2.2 a' (List.mem_map.2 ⟨(a', k), h, rfl⟩) a (by simp)
    have hgt : ∀ a' k, (a', k) ∈ m2 → a < a' := fun a' k h =>
      hm.2.1.1 a' (List.mem_map.2 ⟨(a', k), h, rfl⟩)
    have hsame : ∀ a' ∈ as, ∀ k, (a', k) ∈ m1 ++ (a, ka) :: m2 ↔ (a', k) ∈ m2 := by
      intro a' ha' k
      have h1 := ha.1 a' ha'
      rw [List.mem_append, List.mem_cons]
      constructor
      · rintro (h | h | h)
        · exact absurd (hlt a' k h) (lt_asymm h1)
        · cases h; exact absurd h1 (lt_irrefl _)
        · exact h
      · exact fun h => .inr (.inr h)
    obtain ⟨l, hl1, hl2⟩ := ih m2 ha.2 hm.2.1.2 fun a' ha' => by
      obtain ⟨k, hk⟩ := hsub a' (by simp [ha'])
      exact ⟨k, (hsame a' ha' k).1 hk⟩
    unfold bucketLookup
    rw [hdw]
    simp only [hl1, Option.map_some]
    refine ⟨_, rfl, fun k => ?_⟩
    rw [List.mem_cons, hl2]
    constructor
    · rintro (rfl | ⟨a', h1, h2⟩)
      · exact ⟨a, by simp, by simp⟩
      · exact ⟨a', by simp [h1], (hsame a' h1 k).2 h2⟩
    · rintro ⟨a', h1, h2⟩
      rcases List.mem_cons.1 h1 with rfl | h1
      · rcases List.mem_append.1 h2 with h | h
        · exact absurd (hlt _ _ h) (lt_irrefl _)
        · rcases List.mem_cons.1 h with h | h
          · cases h; exact .inl rfl
          · exact absurd (hgt _ _ h) (lt_irrefl _)
      · exact .inr ⟨a', h1, (hsame a' h1 k).1 h2⟩

theorem foldl_if_pushNew (b : B) (l : List (A × B)) (v : List A) :
    l.foldl (fun v x => if x.2 = b then pushNew v x.1 else v) v =
      ((l.filter fun x => decide (x.2 = b)).map Prod.fst).foldl pushNew v := by
  induction l generalizing v with
  | nil => rfl
  | cons x l ih =>
    rw [List.foldl_cons, List.filter_cons]
    by_cases h : x.2 = b
    · rw [if_pos h, if_pos (by simpa using h)]
      exact ih _
    · rw [if_neg h, if_neg (by simpa using h)]
      exact ih _

theorem aMatchB_spec {X : List (A × B)} (h : PairSorted X) (b : B) {m : List (A × Nat)}
    (hm : Strict (m.map Prod.fst)) (hsub : ∀ a b, (a, b) ∈ X → ∃ k, (a, k) ∈ m) :
    ∃ l, aMatchB X b m = some l ∧ Strict l ∧ ∀ k, k ∈ l ↔ ∃ a, (a, b) ∈ X ∧ (a, k) ∈ m := by
  unfold aMatchB
  rw [foldl_if_pushNew]
  have hs : Incr ((X.filter fun x => decide (x.2 = b)).map Prod.fst) :=
    List.Pairwise.sublist (List.filter_sublist.map Prod.fst) h.fst
  obtain ⟨h1, h2⟩ := pushNew_nil _ hs
  have h3 : ∀ a, a ∈ ((X.filter fun x => decide (x.2 = b)).map Prod.fst).foldl pushNew [] ↔ (a, b) ∈ X := by
    intro a
    rw [h2, List.mem_map]
    constructor
    · rintro ⟨⟨a', b'⟩, hx, rfl⟩
      obtain ⟨hx', he⟩ := List.mem_filter.1 hx
      have : b' = b := by simpa using he
      subst this; exact hx'
    · intro hx
      exact ⟨(a, b), List.mem_filter.2 ⟨hx, by simp⟩, rfl⟩
  obtain ⟨l, h4, h5⟩ := bucketLookup_spec _ m h1 hm fun a ha => hsub a b ((h3 a).1 ha)
  simp only [h4, Option.map_some]
  obtain ⟨h6, h7⟩ := uniqueBy_spec (sortBy_incr l)
  refine ⟨_, rfl, h6, fun k => ?_⟩
  rw [h7, mem_sortBy, h5]
  exact exists_congr fun a => by rw [h3]

/-! ## Buckets -/

/-- What is known about one bucket. -/
structure BOk (RX RY : T → U → Prop) (b : Bucket T U) : Prop where
  sx : Strict b.zx
  sy : Strict b.zy
  zx : ∀ u, u ∈ b.zx ↔ ∃ e ∈ b.elems, RX e u
  zy : ∀ u, u ∈ b.zy ↔ ∃ e ∈ b.elems, RY e u
  disj : ∀ u ∈ b.zx, u ∉ b.zy

theorem isDisjoint_iff {a b : List U} (ha : Strict a) (hb : Strict b) :
    isDisjoint ltB ltB a b = true ↔ ∀ x ∈ a, ∀ y ∈ b, x ≠ y :=
  Props.c37_is_disjoint id id a b ha.incr hb.incr

theorem assign_spec {RX RY : T → U → Prop} {xs ys : List U} {e : T} (hx : Strict xs) (hy : Strict ys)
    (hxs : ∀ u, u ∈ xs ↔ RX e u) (hys : ∀ u, u ∈ ys ↔ RY e u) (hd : ∀ u ∈ xs, u ∉ ys)
    (bs : List (Bucket T U)) (hb : ∀ b ∈ bs, BOk RX RY b) :
    (∀ b ∈ (assignBucket xs ys e bs).1, BOk RX RY b) ∧
    (∀ (i : Nat) (x : T), (∃ b, (assignBucket xs ys e bs).1[i]? = some b ∧ x ∈ b.elems) ↔
      (∃ b, bs[i]? = some b ∧ x ∈ b.elems) ∨ (i = (assignBucket xs ys e bs).2 ∧ x = e)) ∧
    (((assignBucket xs ys e bs).1.flatMap Bucket.elems).Perm (e :: bs.flatMap Bucket.elems)) ∧
    ((∀ b ∈ bs, b.elems ≠ []) → ∀ b ∈ (assignBucket xs ys e bs).1, b.elems ≠ []) := by
  induction bs with
  | nil =>
    refine ⟨fun b h => ?_, fun i x => ?_, by simp [assignBucket], fun _ b h => ?_⟩
    · simp only [assignBucket, List.mem_singleton] at h
      subst h
      exact ⟨hx, hy, by simpa using hxs, by simpa using hys, hd⟩
    · simp only [assignBucket]
      cases i with
      | zero => simp
      | succ i => simp
    · simp only [assignBucket, List.mem_singleton] at h
      subst h; simp
  | cons b bs ih =>
    obtain ⟨h1, h2, h3, h4⟩ := ih fun b h => hb b (by simp [h])
    have hb0 := hb b (by simp)
    unfold assignBucket
    by_cases hc : (isDisjoint ltB ltB b.zy xs && isDisjoint ltB ltB b.zx ys) = true
    · rw [if_pos hc]
      rw [Bool.and_eq_true, isDisjoint_iff hb0.sy hx, isDisjoint_iff hb0.sx hy] at hc
      refine ⟨fun b' h => ?_, fun i x => ?_, ?_, fun hne b' h => ?_⟩
      · rcases List.mem_cons.1 h with rfl | h
        · refine ⟨unionG_strict hb0.sx hx, unionG_strict hb0.sy hy, fun u => ?_, fun u => ?_, fun u hu hu' => ?_⟩
          · simp only [mem_unionG, hb0.zx, hxs, List.mem_append, List.mem_singleton]
            grind
          · simp only [mem_unionG, hb0.zy, hys, List.mem_append, List.mem_singleton]
            grind
          · rcases (mem_unionG _ _ _).1 hu with hu | hu <;> rcases (mem_unionG _ _ _).1 hu' with hu' | hu'
            · exact hb0.disj u hu hu'
            · exact hc.2 u hu u hu' rfl
            · exact hc.1 u hu' u hu rfl
            · exact hd u hu hu'
        · exact hb b' (by simp [h])
      · cases i with
        | zero => simp
        | succ i => simp
      · simp only [List.flatMap_cons]
        rw [List.append_assoc]
        exact List.perm_middle
      · rcases List.mem_cons.1 h with rfl | h
        · simp
        · exact hne b' (by simp [h])
    · rw [if_neg hc]
      refine ⟨fun b' h => ?_, fun i x => ?_, ?_, fun hne b' h => ?_⟩
      · rcases List.mem_cons.1 h with rfl | h
        · exact hb0
        · exact h1 b' h
      · cases i with
        | zero => simp
        | succ i => simpa using h2 i x
      · simp only [List.flatMap_cons]
        exact (List.Perm.append_left _ h3).trans List.perm_middle
      · rcases List.mem_cons.1 h with rfl | h
        · exact hne _ (by simp)
        · exact h4 (fun b h => hne b (by simp [h])) b' h

/-- The buckets for the elements `es`. -/
structure BInv (RX RY : T → U → Prop) (es : List T) (bs : List (Bucket T U)) : Prop where
  ok : ∀ b ∈ bs, BOk RX RY b
  perm : (bs.flatMap Bucket.elems).Perm es
  ne : (∀ b ∈ bs, b.elems ≠ []) ∨ (es = [] ∧ bs = [{ elems := [], zx := [], zy := [] }])

theorem binv_init (RX RY : T → U → Prop) : BInv RX RY [] [{ elems := [], zx := [], zy := [] }] := by
  refine ⟨fun b hb => ?_, by simp, .inr ⟨rfl, rfl⟩⟩
  rw [List.mem_singleton] at hb; subst hb
  exact ⟨List.Pairwise.nil, List.Pairwise.nil, by simp, by simp, by simp⟩

theorem binv_step {RX RY : T → U → Prop} {xs ys : List U} {e : T} (hx : Strict xs) (hy : Strict ys)
    (hxs : ∀ u, u ∈ xs ↔ RX e u) (hys : ∀ u, u ∈ ys ↔ RY e u) (hd : ∀ u ∈ xs, u ∉ ys)
    {es : List T} {bs : List (Bucket T U)} (h : BInv RX RY es bs) :
    BInv RX RY (es ++ [e]) (assignBucket xs ys e bs).1 := by
  obtain ⟨h1, _, h3, h4⟩ := assign_spec hx hy hxs hys hd bs h.ok
  refine ⟨h1, ?_, .inl ?_⟩
  · exact h3.trans ((List.Perm.cons e h.perm).trans (List.perm_append_singleton e es).symm)
  · rcases h.ne with hne | ⟨rfl, rfl⟩
    · exact h4 hne
    · intro b hb
      have hdis : ∀ l : List U, isDisjoint ltB ltB ([] : List U) l = true := by
        intro l; cases l <;> simp [isDisjoint]
      simp only [assignBucket, hdis, Bool.and_self, if_true, List.mem_singleton] at hb
      subst hb; simp

/-! ## The two passes -/

theorem passA {X Y : List (A × B)} (hX : PairSorted X) (hY : PairSorted Y) (hd : ∀ x ∈ X, x ∉ Y)
    (es : List A) {es0 : List A} {s : List (Bucket A B) × List (A × Nat)}
    (h : BInv (fun a b => (a, b) ∈ X) (fun a b => (a, b) ∈ Y) es0 s.1)
    (hm : ∀ (a : A) (k : Nat), (a, k) ∈ s.2 ↔ ∃ b, s.1[k]? = some b ∧ a ∈ b.elems)
    (hk : s.2.map Prod.fst = es0) :
    BInv (fun a b => (a, b) ∈ X) (fun a b => (a, b) ∈ Y) (es0 ++ es) (es.foldl (assignA X Y) s).1 ∧
    (∀ (a : A) (k : Nat), (a, k) ∈ (es.foldl (assignA X Y) s).2 ↔
      ∃ b, (es.foldl (assignA X Y) s).1[k]? = some b ∧ a ∈ b.elems) ∧
    (es.foldl (assignA X Y) s).2.map Prod.fst = es0 ++ es := by
  induction es generalizing es0 s with
  | nil => simpa using ⟨h, hm, hk⟩
  | cons e es ih =>
    rw [List.foldl_cons]
    obtain ⟨hx1, hx2⟩ := bMatchA_spec hX e
    obtain ⟨hy1, hy2⟩ := bMatchA_spec hY e
    have hdis : ∀ u ∈ bMatchA X e, u ∉ bMatchA Y e := fun u h1 h2 => hd _ ((hx2 u).1 h1) ((hy2 u).1 h2)
    have h1 := binv_step hx1 hy1 hx2 hy2 hdis h
    obtain ⟨_, h2, _, _⟩ := assign_spec hx1 hy1 hx2 hy2 hdis s.1 h.ok
    have := ih (es0 := es0 ++ [e]) (s := assignA X Y s e) h1 (fun a k => by
      unfold assignA
      simp only [List.mem_append, List.mem_singleton, Prod.mk.injEq]
      rw [h2, hm]
      constructor
      · rintro (h | ⟨rfl, rfl⟩)
        · exact .inl h
        · exact .inr ⟨rfl, rfl⟩
      · rintro (h | ⟨rfl, rfl⟩)
        · exact .inl h
        · exact .inr ⟨rfl, rfl⟩) (by unfold assignA; simp [hk])
    simpa using this

theorem passB {X Y : List (A × B)} (hX : PairSorted X) (hY : PairSorted Y) {m : List (A × Nat)}
    (hm : Strict (m.map Prod.fst)) (hsx : ∀ a b, (a, b) ∈ X → ∃ k, (a, k) ∈ m)
    (hsy : ∀ a b, (a, b) ∈ Y → ∃ k, (a, k) ∈ m)
    (hd : ∀ a a' b k, (a, b) ∈ X → (a', b) ∈ Y → (a, k) ∈ m → (a', k) ∉ m)
    (es : List B) {es0 : List B} {s : List (Bucket B Nat)}
    (h : BInv (fun b k => ∃ a, (a, b) ∈ X ∧ (a, k) ∈ m) (fun b k => ∃ a, (a, b) ∈ Y ∧ (a, k) ∈ m) es0 s) :
    ∃ s', es.foldl (assignB X Y m) (some s) = some s' ∧
      BInv (fun b k => ∃ a, (a, b) ∈ X ∧ (a, k) ∈ m) (fun b k => ∃ a, (a, b) ∈ Y ∧ (a, k) ∈ m) (es0 ++ es) s' := by
  induction es generalizing es0 s with
  | nil => exact ⟨s, rfl, by simpa using h⟩
  | cons e es ih =>
    obtain ⟨xs, hx1, hx2, hx3⟩ := aMatchB_spec hX e hm hsx
    obtain ⟨ys, hy1, hy2, hy3⟩ := aMatchB_spec hY e hm hsy
    rw [List.foldl_cons]
    have hs : assignB X Y m (some s) e = some (assignBucket xs ys e s).1 := by
      unfold assignB; simp [hx1, hy1]
    rw [hs]
    have h1 := binv_step hx2 hy2 hx3 hy3 (fun u h1 h2 => by
      obtain ⟨a, ha, hk⟩ := (hx3 u).1 h1
      obtain ⟨a', ha', hk'⟩ := (hy3 u).1 h2
      exact hd a a' e u ha ha' hk hk') h
    obtain ⟨s', h2, h3⟩ := ih h1
    exact ⟨s', h2, by simpa using h3⟩

/-- `make_pair_refinement`: all the guarantees. -/
theorem makePair_spec {X Y : List (A × B)} {wild : List A} {Bs : List B} (hd : ∀ x ∈ X, x ∉ Y)
    (hBn : Bs.Nodup) (hB : ∀ b, b ∈ Bs ↔ (∃ a, (a, b) ∈ X) ∨ ∃ a, (a, b) ∈ Y)
    (hX0 : X ≠ []) :
    ∃ (pas : List (List A)) (pbs : List (List B)),
      makePairRefinement X Y wild Bs = some (pas ++ (if wild.isEmpty then [] else [wild]), pbs) ∧
      (pas.flatten.Nodup ∧ ∀ a, a ∈ pas.flatten ↔ (∃ b, (a, b) ∈ X) ∨ ∃ b, (a, b) ∈ Y) ∧
      (pbs.flatten.Perm Bs) ∧ (∀ p ∈ pas, p ≠ []) ∧ (∀ p ∈ pbs, p ≠ []) ∧
      (∀ p ∈ pas, ∀ q ∈ pbs, ∀ a b a' b', (a, b) ∈ X → (a', b') ∈ Y → a ∈ p → b ∈ q → a' ∈ p → b' ∉ q) := by
  have hXs := sortPairs X
  have hYs := sortPairs Y
  have hXm := fun x => mem_sortBy pairLt X x
  have hYm := fun x => mem_sortBy pairLt Y x
  have hd' : ∀ x ∈ sortBy pairLt X, x ∉ sortBy pairLt Y := fun x h1 h2 => hd x ((hXm x).1 h1) ((hYm x).1 h2)
  obtain ⟨hA1, hA2⟩ := collectAs_spec hXs hYs
  unfold makePairRefinement
  simp only
  obtain ⟨p1, p2, p3⟩ := passA hXs hYs hd' (collectAs (sortBy pairLt X) (sortBy pairLt Y))
    (s := ([{ elems := [], zx := [], zy := [] }], [])) (binv_init _ _) (fun a k => by
      cases k with
      | zero => simp
      | succ k => simp) rfl
  generalize (collectAs (sortBy pairLt X) (sortBy pairLt Y)).foldl (assignA (sortBy pairLt X) (sortBy pairLt Y))
    ([{ elems := [], zx := [], zy := [] }], []) = r at p1 p2 p3
  rw [List.nil_append] at p1 p3
  have hkey : ∀ a, a ∈ collectAs (sortBy pairLt X) (sortBy pairLt Y) → ∃ k, (a, k) ∈ r.2 := by
    intro a ha
    rw [← p3] at ha
    obtain ⟨⟨a', k⟩, h, rfl⟩ := List.mem_map.1 ha
    exact ⟨k, h⟩
  have hb1 : ∀ a b, (a, b) ∈ sortBy pairLt X → ∃ k, (a, k) ∈ r.2 := fun a b h =>
    hkey a ((hA2 a).2 (.inl ⟨b, h⟩))
  have hb2 : ∀ a b, (a, b) ∈ sortBy pairLt Y → ∃ k, (a, k) ∈ r.2 := fun a b h =>
    hkey a ((hA2 a).2 (.inr ⟨b, h⟩))
  obtain ⟨s', q1, q2⟩ := passB hXs hYs (m := r.2) (by rw [p3]; exact hA1) hb1 hb2
    (fun a a' b k hax hay hak hak' => by
      obtain ⟨c, hc1, hc2⟩ := (p2 a k).1 hak
      obtain ⟨c', hc1', hc2'⟩ := (p2 a' k).1 hak'
      rw [hc1] at hc1'; cases hc1'
      have hok := p1.ok c (List.mem_of_getElem? hc1)
      exact hok.disj b ((hok.zx b).2 ⟨a, hc2, hax⟩) ((hok.zy b).2 ⟨a', hc2', hay⟩))
    Bs (binv_init _ _)
  rw [q1]
  rw [List.nil_append] at q2
  refine ⟨r.1.map Bucket.elems, s'.map Bucket.elems, rfl, ⟨?_, fun a => ?_⟩, ?_, ?_, ?_, ?_⟩
  · rw [← List.flatMap_def]
    exact p1.perm.nodup_iff.2 hA1.nodup
  · rw [← List.flatMap_def, p1.perm.mem_iff, hA2]
    simp only [hXm, hYm]
  · rw [← List.flatMap_def]; exact q2.perm
  · intro p hp
    obtain ⟨b, hb, rfl⟩ := List.mem_map.1 hp
    rcases p1.ne with h | ⟨h, _⟩
    · exact h b hb
    · obtain ⟨⟨a0, b0⟩, hx0⟩ := List.exists_mem_of_ne_nil _ hX0
      have := (hA2 a0).2 (.inl ⟨b0, (hXm _).2 hx0⟩)
      rw [h] at this; cases this
  · intro p hp
    obtain ⟨b, hb, rfl⟩ := List.mem_map.1 hp
    rcases q2.ne with h | ⟨h, _⟩
    · exact h b hb
    · obtain ⟨⟨a0, b0⟩, hx0⟩ := List.exists_mem_of_ne_nil _ hX0
      have := (hB b0).2 (.inl ⟨a0, hx0⟩)
      rw [h] at this; cases this
  · intro p hp q hq a b a' b' hax hay hap hbq ha'p hb'q
    obtain ⟨cp, hcp, rfl⟩ := List.mem_map.1 hp
    obtain ⟨cq, hcq, rfl⟩ := List.mem_map.1 hq
    obtain ⟨k, hk⟩ := List.mem_iff_getElem?.1 hcp
    have hok := q2.ok cq hcq
    have h1 : k ∈ cq.zx := (hok.zx k).2 ⟨b, hbq, a, (hXm _).2 hax, (p2 a k).2 ⟨cp, hk, hap⟩⟩
    have h2 : k ∈ cq.zy := (hok.zy k).2 ⟨b', hb'q, a', (hYm _).2 hay, (p2 a' k).2 ⟨cp, hk, ha'p⟩⟩
    exact hok.disj k h1 h2

end

end Verif
