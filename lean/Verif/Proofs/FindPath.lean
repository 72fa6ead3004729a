import Verif.Proofs.AutOps
import Mathlib.Data.List.Perm.Subperm

/-! # `AutomatonPath` and `find_path` -/

namespace Verif

variable {W : Type}

namespace APath

variable {S : Type}

theorem foldl_flip_cons {α : Type} (l acc : List α) : l.foldl (fun es x => x :: es) acc = l.reverse ++ acc := by
  induction l generalizing acc with
  | nil => rfl
  | cons x l ih => rw [List.foldl_cons, ih]; simp

theorem mk?_spec (path : List S) (stack : List Nat) (h : path.length = stack.length + 1) :
    ∃ p, mk? path stack = some p ∧ p.edges.map Prod.snd ++ [p.fin] = path ∧ p.edges.map Prod.fst = stack := by
  unfold mk?
  obtain ⟨init, last, rfl⟩ : ∃ init last, path = init ++ [last] := by
    rcases List.eq_nil_or_concat path with rfl | ⟨l, x, rfl⟩
    · simp at h
    · exact ⟨l, x, by simp⟩
  simp only [List.length_append, List.length_cons, List.length_nil, Nat.zero_add, Nat.add_right_cancel_iff] at h
  simp only [List.reverse_append, List.reverse_cons, List.reverse_nil, List.nil_append, List.singleton_append]
  rw [if_neg (by simp; omega)]
  refine ⟨_, rfl, ?_, ?_⟩
  · simp only [foldl_flip_cons, List.append_nil]
    rw [List.zip, ← List.reverse_zipWith h.symm, List.reverse_reverse, ← List.zip]
    rw [List.map_snd_zip (by omega)]
  · simp only [foldl_flip_cons, List.append_nil]
    rw [List.zip, ← List.reverse_zipWith h.symm, List.reverse_reverse, ← List.zip]
    rw [List.map_fst_zip (by omega)]

theorem stack_eq (p : APath S) : p.stack = p.edges.map Prod.fst := by
  unfold stack
  have : ∀ (l : List (Nat × S)) acc, l.foldl (fun st x => st ++ [x.1]) acc = acc ++ l.map Prod.fst := by
    intro l
    induction l with
    | nil => simp
    | cons x l ih => intro acc; rw [List.foldl_cons, ih]; simp
  simpa using this p.edges []

theorem pathAndStack_eq (p : APath S) : p.pathAndStack =
    ((p.edges.filter fun x => decide (x.1 ≠ epsilon)).map Prod.snd ++ [p.fin],
      (p.edges.filter fun x => decide (x.1 ≠ epsilon)).map Prod.fst) := by
  unfold pathAndStack
  have : ∀ (l : List (Nat × S)) (acc : List S × List Nat), l.foldl (fun (r : List S × List Nat) x =>
      if x.1 ≠ epsilon then (r.1 ++ [x.2], r.2 ++ [x.1]) else r) acc =
      (acc.1 ++ (l.filter fun x => decide (x.1 ≠ epsilon)).map Prod.snd,
        acc.2 ++ (l.filter fun x => decide (x.1 ≠ epsilon)).map Prod.fst) := by
    intro l
    induction l with
    | nil => simp
    | cons x l ih =>
      intro acc
      rw [List.foldl_cons, ih]
      by_cases hx : x.1 = epsilon <;> simp [hx]
  rw [this]
  simp

theorem split_eq (p : APath (Nat × Nat)) :
    p.split = (⟨p.fin.1, p.edges.map fun x => (x.1, x.2.1)⟩, ⟨p.fin.2, p.edges.map fun x => (x.1, x.2.2)⟩) := by
  unfold split
  have : ∀ l : List (Nat × Nat × Nat),
      l.reverse.foldl (fun (r : APath Nat × APath Nat) x => (r.1.emplace x.2.1 x.1, r.2.emplace x.2.2 x.1))
        (⟨p.fin.1, []⟩, ⟨p.fin.2, []⟩) =
      (⟨p.fin.1, l.map fun x => (x.1, x.2.1)⟩, ⟨p.fin.2, l.map fun x => (x.1, x.2.2)⟩) := by
    intro l
    induction l with
    | nil => rfl
    | cons x l ih =>
      rw [List.reverse_cons, List.foldl_append, ih]
      rfl
  exact this p.edges

/-- The states of the path, from front to end. -/
def states (p : APath S) : List S := p.edges.map Prod.snd ++ [p.fin]

end APath

/-- The path `p` is an accepting path of the automaton that starts in a state below `size`. -/
def AcceptingPath (a : Aut W) (size : Nat) (p : APath Nat) : Prop :=
  Spells (· ∈ keys a.edges) p.states p.stack ∧ p.frontState < size ∧ a.isAcc p.fin = true

theorem APath.head_states {S : Type} (p : APath S) : p.states.head? = some p.frontState := by
  rcases p with ⟨f, _ | ⟨x, es⟩⟩ <;> rfl

theorem APath.last_states {S : Type} (p : APath S) : p.states.getLast? = some p.fin := by
  simp [APath.states]

theorem pairwise_of_mem {α : Type} {R : α → α → Prop} : ∀ {l : List α},
    (∀ x ∈ l, ∀ y ∈ l, R x y) → l.Pairwise R
  | [], _ => .nil
  | x :: l, h => .cons (fun y hy => h x (by simp) y (by simp [hy]))
      (pairwise_of_mem fun a ha b hb => h a (by simp [ha]) b (by simp [hb]))

namespace Aut

theorem firstLabel_some {a : Aut W} {q u l : Nat} (h : a.firstLabel q u = some l) :
    (⟨q, l, u⟩ : Tr) ∈ keys a.edges := by
  unfold firstLabel at h
  have := List.min?_mem h
  simp only [List.mem_map, List.mem_filter, Bool.and_eq_true, beq_iff_eq] at this
  obtain ⟨t, ⟨h1, h2, h3⟩, h4⟩ := this
  rcases t with ⟨x, y, z⟩
  simp only at h2 h3 h4
  subst h2 h3 h4
  exact h1

theorem firstLabel_isSome {a : Aut W} {q u l : Nat} (h : (⟨q, l, u⟩ : Tr) ∈ keys a.edges) :
    ∃ l', a.firstLabel q u = some l' := by
  unfold firstLabel
  rw [← Option.isSome_iff_exists]
  rw [Option.isSome_iff_ne_none]
  intro h1
  rw [List.min?_eq_none_iff] at h1
  have : l ∈ (((keys a.edges).filter fun t => t.src == q && t.dst == u).map Tr.label) := by
    simp only [List.mem_map, List.mem_filter, Bool.and_eq_true, beq_iff_eq]
    exact ⟨_, ⟨h, rfl, rfl⟩, rfl⟩
  rw [h1] at this
  simp at this

theorem findScan_spec (a : Aut W) (q i : Nat) (tos : List Nat) (s : FindSt) (hnd : s.seen.Nodup) :
    match a.findScan q i tos s with
    | .inl r => ∃ u l, (⟨q, l, u⟩ : Tr) ∈ keys a.edges ∧ a.isAcc u = true ∧
        r = (s.path.set (i + 1) u, s.labels.set i l)
    | .inr s' => s'.path = s.path ∧ s'.labels = s.labels ∧ s'.seen.Nodup ∧
        (∃ new : List (Nat × Nat × Nat), s'.waiting = new ++ s.waiting ∧
          s'.seen.length = s.seen.length + new.length ∧
          (∀ x ∈ new, x.2.1 = i + 1 ∧ (⟨q, x.2.2, x.1⟩ : Tr) ∈ keys a.edges ∧ a.isAcc x.1 = false) ∧
          ∀ u, u ∈ s'.seen ↔ u ∈ s.seen ∨ u ∈ new.map Prod.fst) ∧
        ∀ u ∈ tos, ∀ l, (⟨q, l, u⟩ : Tr) ∈ keys a.edges → u ∈ s'.seen := by
  induction tos generalizing s with
  | nil => exact ⟨rfl, rfl, hnd, ⟨[], by simp, by simp, by simp, by simp⟩, by simp⟩
  | cons v tos ih =>
    unfold findScan
    cases hl : a.firstLabel q v with
    | none =>
      have hno : ∀ l, (⟨q, l, v⟩ : Tr) ∉ keys a.edges := fun l h => by
        obtain ⟨l', h'⟩ := firstLabel_isSome h; simp [hl] at h'
      have := ih s hnd
      simp only
      split at this
      · rename_i hs; (try rw [hs]); exact this
      · rename_i hs; (try rw [hs])
        obtain ⟨h1, h2, h3, h4, h5⟩ := this
        refine ⟨h1, h2, h3, h4, fun u hu l he => ?_⟩
        rcases List.mem_cons.1 hu with rfl | hu
        · exact absurd he (hno l)
        · exact h5 u hu l he
    | some l0 =>
      have hE := firstLabel_some hl
      simp only
      by_cases hc : s.seen.contains v = true
      · rw [if_pos hc]
        have := ih s hnd
        split at this
        · rename_i hs; (try rw [hs]); exact this
        · rename_i hs; (try rw [hs])
          obtain ⟨h1, h2, h3, h4, h5⟩ := this
          refine ⟨h1, h2, h3, h4, fun u hu l he => ?_⟩
          rcases List.mem_cons.1 hu with rfl | hu
          · obtain ⟨new, _, _, _, h6⟩ := h4
            exact (h6 u).2 (.inl (by simpa using hc))
          · exact h5 u hu l he
      · rw [if_neg hc]
        have hc' : v ∉ s.seen := by simpa using hc
        by_cases ha : a.isAcc v = true
        · rw [if_pos ha]
          exact ⟨v, l0, hE, ha, rfl⟩
        · rw [if_neg ha]
          have := ih { s with seen := v :: s.seen, waiting := (v, i + 1, l0) :: s.waiting }
            (List.nodup_cons.2 ⟨hc', hnd⟩)
          split at this
          · rename_i hs; (try rw [hs]); exact this
          · rename_i hs; (try rw [hs])
            obtain ⟨h1, h2, h3, ⟨new, h4, h5, h6, h7⟩, h8⟩ := this
            refine ⟨h1, h2, h3, ⟨new ++ [(v, i + 1, l0)], by simp [h4], ?_, ?_, ?_⟩, ?_⟩
            · simp only [List.length_cons, List.length_append, List.length_nil] at h5 ⊢; omega
            · intro x hx
              rcases List.mem_append.1 hx with hx | hx
              · exact h6 x hx
              · simp only [List.mem_singleton] at hx
                subst hx
                exact ⟨rfl, hE, by simpa using ha⟩
            · intro u
              rw [h7]
              simp only [List.mem_cons, List.map_append, List.mem_append, List.map_cons, List.map_nil,
                List.not_mem_nil, or_false]
              constructor
              · rintro ((h | h) | h)
                · exact .inr (.inr h)
                · exact .inl h
                · exact .inr (.inl h)
              · rintro (h | h | h)
                · exact .inl (.inr h)
                · exact .inr h
                · exact .inl (.inl h)
            · intro u hu l he
              rcases List.mem_cons.1 hu with rfl | hu
              · exact (h7 u).2 (.inl (by simp))
              · exact h8 u hu l he

/-- The invariant of the search. -/
structure FindInv (a : Aut W) (size : Nat) (s : FindSt) : Prop where
  idx : s.waiting.Pairwise fun x y => y.2.1 ≤ x.2.1
  item : ∀ x ∈ s.waiting, x.2.1 ≤ s.path.length ∧ x.2.1 - 1 ≤ s.labels.length ∧
    Spells (· ∈ keys a.edges) (s.path.take x.2.1 ++ [x.1])
      (if x.2.1 = 0 then [] else s.labels.take (x.2.1 - 1) ++ [x.2.2]) ∧
    ∃ q0, (s.path.take x.2.1 ++ [x.1]).head? = some q0 ∧ q0 < size
  nodup : s.seen.Nodup
  lt : ∀ u ∈ s.seen, u < a.n
  done : ∀ u, (u < size ∨ u ∈ s.seen) → a.isAcc u = false ∧
    (u ∈ s.waiting.map Prod.fst ∨ ∀ l v, (⟨u, l, v⟩ : Tr) ∈ keys a.edges → v ∈ s.seen)

theorem resize_length (l : List Nat) (k : Nat) : (resize l k).length = k := by
  simp [resize]; omega

theorem take_resize (l : List Nat) (k j : Nat) (h1 : j ≤ k) (h2 : j ≤ l.length) :
    (resize l k).take j = l.take j := by
  unfold resize
  rw [List.take_append_of_le_length (by simp; omega), List.take_take, Nat.min_eq_left h1]

theorem take_set_of_le (l : List Nat) (i j v : Nat) (h : j ≤ i) : (l.set i v).take j = l.take j := by
  rw [List.take_set_of_le h]

theorem take_succ_set (l : List Nat) (i v : Nat) (h : i < l.length) :
    (l.set i v).take (i + 1) = l.take i ++ [v] := by
  rw [List.take_succ, List.take_set_of_le (Nat.le_refl i)]
  simp [h]

theorem seen_le {a : Aut W} {l : List Nat} (h : l.Nodup) (hl : ∀ u ∈ l, u < a.n) : l.length ≤ a.n := by
  have : l.Subperm (List.range a.n) := h.subperm (fun u hu => List.mem_range.2 (hl u hu))
  simpa using this.length_le

theorem findLoop_spec (h : HashOrder) (a : Aut W) (size : Nat)
    (hE : ∀ t ∈ keys a.edges, t.dst < a.n) (k : Nat) (s : FindSt) (hi : FindInv a size s)
    (hk : s.waiting.length + (a.n - s.seen.length) ≤ k) :
    match a.findLoop h k s with
    | some r => Spells (· ∈ keys a.edges) r.1 r.2 ∧ (∃ q0, r.1.head? = some q0 ∧ q0 < size) ∧
        ∃ f, r.1.getLast? = some f ∧ a.isAcc f = true
    | none => ∀ q w f, q < size → Path (· ∈ keys a.edges) q w f → a.isAcc f = false := by
  have hend : ∀ s : FindSt, FindInv a size s → s.waiting = [] →
      ∀ q w f, q < size → Path (· ∈ keys a.edges) q w f → a.isAcc f = false := by
    intro s hi hw q w f hq hp
    have : ∀ q w f, Path (· ∈ keys a.edges) q w f → (q < size ∨ q ∈ s.seen) → a.isAcc f = false := by
      intro q w f hp
      induction hp with
      | nil q => exact fun hq => (hi.done q hq).1
      | cons he _ ih =>
        intro hq
        rcases (hi.done _ hq).2 with h1 | h1
        · simp [hw] at h1
        · exact ih (.inr (h1 _ _ he))
    exact this q w f hp (.inl hq)
  induction k generalizing s with
  | zero =>
    have hw : s.waiting = [] := List.length_eq_zero_iff.1 (by omega)
    simp only [findLoop]
    exact hend s hi hw
  | succ k ih =>
    unfold findLoop
    cases hw : s.waiting with
    | nil => simp only; exact hend s hi hw
    | cons x wt =>
      obtain ⟨q, i, last⟩ := x
      simp only
      obtain ⟨x1, x2, x3, x4⟩ := hi.item (q, i, last) (by simp [hw])
      simp only at x1 x2 x3 x4
      have hidx := hi.idx
      rw [hw, List.pairwise_cons] at hidx
      -- the buffers after the item has been entered
      generalize hP : (resize s.path (i + 2)).set i q = P
      generalize hL : (if i > 0 then (resize s.labels (i + 1)).set (i - 1) last
        else resize s.labels (i + 1)) = L
      have hPlen : P.length = i + 2 := by rw [← hP, List.length_set, resize_length]
      have hLlen : L.length = i + 1 := by
        rw [← hL]; split
        · rw [List.length_set, resize_length]
        · rw [resize_length]
      have hPt : ∀ j, j ≤ i → P.take j = s.path.take j := by
        intro j hj
        rw [← hP, take_set_of_le _ _ _ _ hj, take_resize _ _ _ (by omega) (by omega)]
      have hPi : P.take (i + 1) = s.path.take i ++ [q] := by
        rw [← hP, take_succ_set _ _ _ (by rw [resize_length]; omega), take_resize _ _ _ (by omega) x1]
      have hLt : ∀ j, j ≤ i - 1 → L.take j = s.labels.take j := by
        intro j hj
        rw [← hL]; split
        · rw [take_set_of_le _ _ _ _ hj, take_resize _ _ _ (by omega) (by omega)]
        · rw [take_resize _ _ _ (by omega) (by omega)]
      have hLi : L.take i = if i = 0 then [] else s.labels.take (i - 1) ++ [last] := by
        by_cases h0 : i = 0
        · simp [h0]
        · obtain ⟨j, rfl⟩ : ∃ j, i = j + 1 := ⟨i - 1, by omega⟩
          rw [if_neg h0, ← hL, if_pos (by omega)]
          simp only [Nat.add_sub_cancel] at x2 ⊢
          rw [take_succ_set _ _ _ (by rw [resize_length]; omega), take_resize _ _ _ (by omega) x2]
      have hcur : Spells (· ∈ keys a.edges) (s.path.take i ++ [q]) (L.take i) := by rw [hLi]; exact x3
      have hscan := findScan_spec a q i (a.outTos h q) { s with path := P, labels := L, waiting := wt } hi.nodup
      split at hscan
      · rename_i r hs
        rw [hs]
        obtain ⟨u, l, he, hacc, rfl⟩ := hscan
        simp only
        have e1 : P.set (i + 1) u = s.path.take i ++ [q, u] := by
          have h1 : (P.set (i + 1) u).take (i + 1 + 1) = P.take (i + 1) ++ [u] :=
            take_succ_set _ _ _ (by omega)
          rw [List.take_of_length_le (by simp [hPlen]), hPi] at h1
          simpa using h1
        have e2 : L.set i l = L.take i ++ [l] := by
          have h1 : (L.set i l).take (i + 1) = L.take i ++ [l] := take_succ_set _ _ _ (by omega)
          rwa [List.take_of_length_le (by simp [hLlen])] at h1
        rw [e1, e2]
        refine ⟨hcur.snoc he, ?_, u, by simp, hacc⟩
        obtain ⟨q0, h1, h2⟩ := x4
        exact ⟨q0, by rw [head?_append_cons]; exact h1, h2⟩
      · rename_i s' hs
        rw [hs]
        obtain ⟨p1, p2, p3, ⟨new, p4, p5, p6, p7⟩, p8⟩ := hscan
        simp only at p1 p2 p4 p5 p7
        simp only
        have hnE : ∀ x ∈ new, x.1 < a.n := fun x hx => hE _ (p6 x hx).2.1
        have hlt : ∀ u ∈ s'.seen, u < a.n := by
          intro u hu
          rcases (p7 u).1 hu with h1 | h1
          · exact hi.lt u h1
          · obtain ⟨x, hx, rfl⟩ := List.mem_map.1 h1
            exact hnE x hx
        refine ih s' ?_ ?_
        · constructor
          · rw [p4, List.pairwise_append]
            refine ⟨?_, hidx.2, ?_⟩
            · refine pairwise_of_mem (R := fun (x y : Nat × Nat × Nat) => y.2.1 ≤ x.2.1) ?_
              intro x hx y hy
              rw [(p6 x hx).1, (p6 y hy).1]; exact Nat.le_refl _
            · intro x hx y hy
              have := hidx.1 y hy
              simp only at this
              rw [(p6 x hx).1]; omega
          · intro x hx
            rw [p1, p2]
            rw [p4] at hx
            rcases List.mem_append.1 hx with hx | hx
            · obtain ⟨y1, y2, _⟩ := p6 x hx
              rw [y1, hPlen, hLlen]
              refine ⟨by omega, by omega, ?_, ?_⟩
              · rw [if_neg (by omega), hPi]
                simp only [Nat.add_sub_cancel, List.append_assoc, List.singleton_append]
                exact hcur.snoc y2
              · obtain ⟨q0, h1, h2⟩ := x4
                refine ⟨q0, ?_, h2⟩
                rw [hPi, List.append_assoc, List.singleton_append, head?_append_cons]
                exact h1
            · have hle := hidx.1 x hx
              simp only at hle
              obtain ⟨y1, y2, y3, y4⟩ := hi.item x (by simp [hw, hx])
              rw [hPt _ hle]
              refine ⟨by omega, by omega, ?_, y4⟩
              rw [hLt _ (by omega)]
              exact y3
          · exact p3
          · exact hlt
          · intro u hu
            by_cases hnew : u ∈ new.map Prod.fst
            · obtain ⟨x, hx, rfl⟩ := List.mem_map.1 hnew
              refine ⟨(p6 x hx).2.2, .inl ?_⟩
              rw [p4, List.map_append]
              exact List.mem_append_left _ hnew
            · have hu' : u < size ∨ u ∈ s.seen := by
                rcases hu with hu | hu
                · exact .inl hu
                · exact .inr (((p7 u).1 hu).resolve_right hnew)
              obtain ⟨d1, d2⟩ := hi.done u hu'
              refine ⟨d1, ?_⟩
              by_cases huq : u = q
              · subst huq
                refine .inr fun l v he => p8 v ?_ l he
                unfold outTos
                rw [List.mem_eraseDups, List.mem_map]
                exact ⟨_, (a.mem_out h u _).2 ⟨he, rfl⟩, rfl⟩
              · rcases d2 with d2 | d2
                · left
                  rw [hw] at d2
                  simp only [List.map_cons, List.mem_cons] at d2
                  rw [p4, List.map_append]
                  exact List.mem_append_right _ (d2.resolve_left huq)
                · exact .inr fun l v he => (p7 v).2 (.inl (d2 l v he))
        · have h1 := seen_le p3 hlt
          have h2 := seen_le hi.nodup hi.lt
          rw [p4, List.length_append]
          rw [hw] at hk
          simp only [List.length_cons] at hk
          omega

/-- `find_path` returns an accepting path if there is one, and the null path otherwise. -/
theorem findPath_spec (h : HashOrder) (a : Aut W) (size : Nat) (hsize : size ≤ a.n)
    (hE : ∀ t ∈ keys a.edges, t.dst < a.n) :
    AcceptingPath a size (a.findPath h size) ∨
      (a.findPath h size = APath.null ∧
        ∀ q w f, q < size → Path (· ∈ keys a.edges) q w f → a.isAcc f = false) := by
  unfold findPath
  cases hf : (List.range size).find? fun i => a.isAcc i with
  | some i =>
    have h1 := List.find?_some hf
    have h2 := List.mem_of_find?_eq_some hf
    exact .inl ⟨trivial, List.mem_range.1 h2, h1⟩
  | none =>
    simp only
    have hn : ∀ u, u < size → a.isAcc u = false := by
      intro u hu
      have := List.find?_eq_none.1 hf u (List.mem_range.2 hu)
      simpa using this
    have hinv : FindInv a size
        ⟨[], [], ((List.range size).map fun i => (i, 0, epsilon)).reverse, []⟩ := by
      constructor
      · refine pairwise_of_mem (R := fun (x y : Nat × Nat × Nat) => y.2.1 ≤ x.2.1) ?_
        intro x hx y hy
        simp only [List.mem_reverse, List.mem_map] at hx hy
        obtain ⟨_, _, rfl⟩ := hx
        obtain ⟨_, _, rfl⟩ := hy
        exact Nat.le_refl _
      · intro x hx
        simp only [List.mem_reverse, List.mem_map, List.mem_range] at hx
        obtain ⟨j, hj, rfl⟩ := hx
        exact ⟨Nat.le_refl _, Nat.zero_le _, trivial, j, rfl, hj⟩
      · exact List.nodup_nil
      · simp
      · intro u hu
        have hu : u < size := by simpa using hu
        refine ⟨hn u hu, .inl ?_⟩
        simp only [List.map_reverse, List.map_map, List.mem_reverse, List.mem_map, List.mem_range]
        exact ⟨u, hu, rfl⟩
    have := findLoop_spec h a size hE a.findFuel _ hinv (by simp [findFuel]; omega)
    split at this
    · rename_i r hr
      rw [hr]
      simp only
      obtain ⟨h1, ⟨q0, h2, h3⟩, f, h4, h5⟩ := this
      obtain ⟨p, g1, g2, g3⟩ := APath.mk?_spec r.1 r.2 h1.length
      rw [g1]
      left
      simp only [Option.getD_some]
      have hst : p.states = r.1 := g2
      refine ⟨?_, ?_, ?_⟩
      · rw [hst, APath.stack_eq, g3]; exact h1
      · have := p.head_states
        rw [hst, h2] at this
        simp only [Option.some.injEq] at this
        rw [← this]; exact h3
      · have := p.last_states
        rw [hst, h4] at this
        simp only [Option.some.injEq] at this
        rw [← this]; exact h5
    · rename_i hr
      rw [hr]
      exact .inr ⟨rfl, this⟩

end Aut

end Verif
