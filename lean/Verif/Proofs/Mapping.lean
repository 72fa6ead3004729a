import Verif.Model.Mapping
import Verif.Proofs.Algorithms
import Mathlib.Data.List.Nodup
import Mathlib.Data.List.Perm.Basic

/-! # `RefinementMapping` and `AbstractionMapping` -/

namespace Verif

variable {α β : Type} [DecidableEq α] [DecidableEq β]

namespace RMap

/-- What holds between the two directions of the mapping. -/
structure Inv (m : RMap α) : Prop where
  keys : m.keys.Nodup
  len : m.data.length = m.keys.length
  cls : ∀ (k c : Nat), k ∈ (m.classes[c]?).getD [] ↔ m.data[k]? = some c
  nodup : ∀ c : Nat, ((m.classes[c]?).getD []).Nodup

theorem inv_empty : Inv ({} : RMap α) := ⟨List.nodup_nil, rfl, by simp, by simp⟩

theorem idxOf_of_getElem? {l : List α} (h : l.Nodup) {k : Nat} {x : α} (hk : l[k]? = some x) : l.idxOf x = k := by
  obtain ⟨hl, rfl⟩ := List.getElem?_eq_some_iff.1 hk
  exact h.idxOf_getElem k hl

theorem getElem?_idxOf' {l : List α} {x : α} (h : x ∈ l) : l[l.idxOf x]? = some x := by
  rw [List.getElem?_eq_some_iff]
  exact ⟨List.idxOf_lt_length_iff.2 h, List.getElem_idxOf _⟩

theorem keyId_iff {m : RMap α} (h : m.keys.Nodup) (x : α) (k : Nat) :
    m.keyId x = some k ↔ m.keys[k]? = some x := by
  unfold keyId
  constructor
  · intro hk
    split at hk
    · next hx => cases hk; exact getElem?_idxOf' hx
    · cases hk
  · intro hk
    rw [if_pos (List.mem_of_getElem? hk), idxOf_of_getElem? h hk]

theorem find_iff {m : RMap α} (h : Inv m) (x : α) (c : Nat) :
    m.find x = some c ↔ ∃ k : Nat, m.keys[k]? = some x ∧ m.data[k]? = some c := by
  unfold find
  rw [Option.map_eq_some_iff]
  constructor
  · rintro ⟨k, hk, hc⟩
    have hk' := (keyId_iff h.keys x k).1 hk
    have hlt : k < m.data.length := by
      rw [h.len]; exact (List.getElem?_eq_some_iff.1 hk').1
    rw [List.getElem?_eq_getElem hlt, Option.getD_some] at hc
    exact ⟨k, hk', by rw [List.getElem?_eq_getElem hlt, hc]⟩
  · rintro ⟨k, hk, hc⟩
    exact ⟨k, (keyId_iff h.keys x k).2 hk, by simp [hc]⟩

theorem find_none {m : RMap α} (x : α) : m.find x = none ↔ x ∉ m.keys := by
  unfold find keyId
  simp

theorem find_isSome {m : RMap α} {x : α} (hx : x ∈ m.keys) : ∃ c, m.find x = some c := by
  cases h : m.find x with
  | none => exact absurd hx ((find_none x).1 h)
  | some c => exact ⟨c, rfl⟩

theorem mem_concrete {m : RMap α} (h : Inv m) (x : α) (c : Nat) : x ∈ m.concrete c ↔ m.find x = some c := by
  unfold concrete
  rw [List.mem_filterMap, find_iff h]
  constructor
  · rintro ⟨k, h1, h2⟩
    exact ⟨k, h2, (h.cls k c).1 h1⟩
  · rintro ⟨k, h1, h2⟩
    exact ⟨k, (h.cls k c).2 h2, h1⟩

theorem nodup_concrete {m : RMap α} (h : Inv m) (c : Nat) : (m.concrete c).Nodup := by
  unfold concrete
  refine (h.nodup c).filterMap ?_
  intro i j x hi hj
  have h1 := idxOf_of_getElem? h.keys hi
  have h2 := idxOf_of_getElem? h.keys hj
  omega

theorem find_lt {m : RMap α} (h : Inv m) {x : α} {c : Nat} (hc : m.find x = some c) : c < m.size := by
  obtain ⟨k, _, h2⟩ := (find_iff h x c).1 hc
  have := (h.cls k c).2 h2
  unfold size
  rcases Nat.lt_or_ge c m.classes.length with h3 | h3
  · exact h3
  · rw [List.getElem?_eq_none h3] at this; simp at this

/-! ## Refining -/

/-- Store `v` at all of `ks`. -/
def setAll (d ks : List Nat) (v : Nat) : List Nat := ks.foldl (fun d k => d.set k v) d

/-- Store `n`, `n + 1`, ... at the members of the lists. -/
def setParts : List Nat → List (List Nat) → Nat → List Nat
  | d, [], _ => d
  | d, ks :: kss, n => setParts (setAll d ks n) kss (n + 1)

theorem setAll_length (d ks : List Nat) (v : Nat) : (setAll d ks v).length = d.length := by
  unfold setAll
  induction ks generalizing d with
  | nil => rfl
  | cons k ks ih => rw [List.foldl_cons, ih]; simp

theorem setAll_get (d ks : List Nat) (v k : Nat) :
    (setAll d ks v)[k]? = if k ∈ ks then d[k]?.map fun _ => v else d[k]? := by
  unfold setAll
  induction ks generalizing d with
  | nil => simp
  | cons a ks ih =>
    rw [List.foldl_cons, ih]
    have hset : (d.set a v)[k]? = if a = k then d[k]?.map fun _ => v else d[k]? := by
      rw [List.getElem?_set]
      by_cases h2 : a = k
      · subst h2
        rw [if_pos rfl, if_pos rfl]
        by_cases h : a < d.length
        · rw [if_pos h, List.getElem?_eq_getElem h]; rfl
        · rw [if_neg h, List.getElem?_eq_none (by omega)]; rfl
      · rw [if_neg h2, if_neg h2]
    rw [hset]
    grind

theorem setParts_length (d : List Nat) (kss : List (List Nat)) (n : Nat) : (setParts d kss n).length = d.length := by
  induction kss generalizing d n with
  | nil => rfl
  | cons ks kss ih => rw [setParts, ih, setAll_length]

theorem setParts_not (d : List Nat) (kss : List (List Nat)) (n : Nat) {k : Nat} (h : k ∉ kss.flatten) :
    (setParts d kss n)[k]? = d[k]? := by
  induction kss generalizing d n with
  | nil => rfl
  | cons ks kss ih =>
    rw [List.flatten_cons, List.mem_append, not_or] at h
    rw [setParts, ih _ _ h.2, setAll_get, if_neg h.1]

theorem setParts_mem (d : List Nat) (kss : List (List Nat)) (n : Nat) (hn : kss.flatten.Nodup) {j k : Nat}
    {ks : List Nat} (hj : kss[j]? = some ks) (hk : k ∈ ks) (hd : k < d.length) :
    (setParts d kss n)[k]? = some (n + j) := by
  induction kss generalizing d n j with
  | nil => simp at hj
  | cons ks' kss ih =>
    rw [List.flatten_cons, List.nodup_append] at hn
    rw [setParts]
    cases j with
    | zero =>
      rw [List.getElem?_cons_zero] at hj; cases hj
      rw [setParts_not _ _ _ (fun h => hn.2.2 k hk k h rfl), setAll_get, if_pos hk, List.getElem?_eq_getElem hd]
      rfl
    | succ j =>
      rw [List.getElem?_cons_succ] at hj
      rw [ih _ (n + 1) hn.2.1 hj (by rw [setAll_length]; exact hd)]
      congr 1; omega

theorem moveValues (m : RMap α) (n : Nat) (p : List α) (hp : ∀ x ∈ p, x ∈ m.keys) (mv : List Nat) :
    p.foldlM (moveValue n) (m, mv) =
      some ({ keys := m.keys, data := setAll m.data (p.map m.keys.idxOf) n,
              classes := m.classes.modify n (· ++ p.map m.keys.idxOf) }, mv ++ p.map m.keys.idxOf) := by
  induction p generalizing m mv with
  | nil =>
    simp only [List.foldlM_nil, List.map_nil, List.append_nil, setAll, List.foldl_nil]
    rw [show (fun x : List Nat => x) = id from rfl, List.modify_id]; rfl
  | cons x p ih =>
    rw [List.foldlM_cons]
    have hx := hp x (by simp)
    have hs : moveValue n (m, mv) x =
        some ({ keys := m.keys, data := m.data.set (m.keys.idxOf x) n,
                classes := m.classes.modify n (· ++ [m.keys.idxOf x]) }, mv ++ [m.keys.idxOf x]) := by
      unfold moveValue keyId
      simp [hx]
    rw [hs]
    simp only [Option.bind_eq_bind, Option.bind_some]
    refine (ih _ (by intro y hy; exact hp y (by simp [hy])) _).trans ?_
    simp only [List.map_cons, List.append_assoc, List.singleton_append]
    congr 2
    have : (m.classes.modify n (· ++ [m.keys.idxOf x])).modify n (· ++ p.map m.keys.idxOf) =
        m.classes.modify n (· ++ m.keys.idxOf x :: p.map m.keys.idxOf) := by
      rw [List.modify_modify_eq]
      congr 1
      funext l
      simp
    rw [this]
    rfl

theorem movePart_eq (m : RMap α) (p : List α) (hp : ∀ x ∈ p, x ∈ m.keys) (mv : List Nat) :
    movePart (m, mv) p =
      some ({ keys := m.keys, data := setAll m.data (p.map m.keys.idxOf) m.classes.length,
              classes := m.classes ++ [p.map m.keys.idxOf] }, mv ++ p.map m.keys.idxOf) := by
  unfold movePart
  simp only
  rw [moveValues _ _ _ (by simpa using hp)]
  simp only
  congr 3
  apply List.ext_getElem?
  intro i
  rw [List.getElem?_modify, List.getElem?_append, List.getElem?_append]
  by_cases h1 : i < m.classes.length
  · rw [if_pos h1, if_pos h1]
    have : ¬ m.classes.length = i := by omega
    simp [this]
  · rw [if_neg h1, if_neg h1]
    by_cases h2 : i = m.classes.length
    · subst h2; simp
    · rw [List.getElem?_eq_none (by simp; omega), List.getElem?_eq_none (by simp; omega)]; rfl

theorem moveParts_eq (m : RMap α) (ps : List (List α)) (hp : ∀ p ∈ ps, ∀ x ∈ p, x ∈ m.keys) (mv : List Nat) :
    ps.foldlM movePart (m, mv) =
      some ({ keys := m.keys,
              data := setParts m.data (ps.map (List.map m.keys.idxOf)) m.classes.length,
              classes := m.classes ++ ps.map (List.map m.keys.idxOf) },
            mv ++ (ps.map (List.map m.keys.idxOf)).flatten) := by
  induction ps generalizing m mv with
  | nil => simp [setParts]
  | cons p ps ih =>
    rw [List.foldlM_cons, movePart_eq m p (hp p (by simp))]
    simp only [Option.bind_eq_bind, Option.bind_some]
    refine (ih _ (by intro q hq; exact hp q (by simp [hq])) _).trans ?_
    simp [setParts]

theorem foldlM_skip {S T : Type} (f : S → T → Option S) (mx : Nat) (l : List T) (n : Nat) (s : S) :
    (l.zipIdx n).foldlM (fun s (p : T × Nat) => if p.2 = mx then some s else f s p.1) s =
      (if n ≤ mx then l.eraseIdx (mx - n) else l).foldlM f s := by
  induction l generalizing n s with
  | nil => simp
  | cons x l ih =>
    rw [List.zipIdx_cons, List.foldlM_cons]
    by_cases h1 : n = mx
    · subst h1
      simp only [if_true, Option.bind_eq_bind, Option.bind_some, Nat.le_refl, Nat.sub_self, List.eraseIdx_cons_zero]
      rw [ih, if_neg (by omega)]
    · simp only [if_neg h1]
      by_cases h2 : n ≤ mx
      · rw [if_pos h2]
        obtain ⟨d, hd⟩ : ∃ d, mx - n = d + 1 := ⟨mx - n - 1, by omega⟩
        rw [hd, List.eraseIdx_cons_succ, List.foldlM_cons]
        congr 1
        funext s'
        rw [ih, if_pos (by omega)]
        congr 2; omega
      · rw [if_neg h2, List.foldlM_cons]
        congr 1
        funext s'
        rw [ih, if_neg (by omega)]

omit [DecidableEq α] in
theorem maxIdx_lt (ps : List (List α)) (h : ps ≠ []) : maxIdx ps < ps.length := by
  induction ps with
  | nil => exact absurd rfl h
  | cons p ps ih =>
    rw [maxIdx]
    simp only [List.length_cons]
    split
    · next q hq =>
      have := (List.getElem?_eq_some_iff.1 hq).1
      split <;> omega
    · omega

theorem sublist_flatten {T : Type} {l l' : List (List T)} (h : l.Sublist l') : l.flatten.Sublist l'.flatten := by
  induction h with
  | slnil => exact List.Sublist.refl _
  | cons a _ ih => rw [List.flatten_cons]; exact ih.trans (List.sublist_append_right _ _)
  | cons_cons a _ ih => rw [List.flatten_cons, List.flatten_cons]; exact ih.append_left a

/-- What `refine` does. -/
theorem refine_spec {m : RMap α} (h : Inv m) {r : Refinement α} (hl : 2 ≤ r.parts.length)
    (hin : ∀ p ∈ r.parts, ∀ x ∈ p, m.find x = some r.id) (hne : ∀ p ∈ r.parts, p ≠ [])
    (hnd : r.parts.flatten.Nodup) :
    ∃ m', m.refine r = some m' ∧ Inv m' ∧ m'.keys = m.keys ∧ m'.size + 1 = m.size + r.parts.length ∧
      (∀ (i : Nat) (p : List α) (x : α), r.parts[i]? = some p → x ∈ p →
        m'.find x = some (if i = maxIdx r.parts then r.id
          else if i < maxIdx r.parts then m.size + i else m.size + (i - 1))) ∧
      (∀ x, x ∉ r.parts.flatten → m'.find x = m.find x) := by
  have hmx := maxIdx_lt r.parts (by intro hh; rw [hh] at hl; simp at hl)
  generalize hM : maxIdx r.parts = mx at hmx
  have hkeys : ∀ p ∈ r.parts, ∀ x ∈ p, x ∈ m.keys := by
    intro p hp x hx
    obtain ⟨k, hk, _⟩ := (find_iff h x r.id).1 (hin p hp x hx)
    exact List.mem_of_getElem? hk
  -- the parts that move
  have hsub : (r.parts.eraseIdx mx).Sublist r.parts := List.eraseIdx_sublist ..
  have hfold : r.parts.zipIdx.foldlM (refineStep mx) (m, []) = (r.parts.eraseIdx mx).foldlM movePart (m, []) := by
    have := foldlM_skip movePart mx r.parts 0 (m, [])
    rw [if_pos (Nat.zero_le _), Nat.sub_zero] at this
    exact this
  generalize hks : (r.parts.eraseIdx mx).map (List.map m.keys.idxOf) = kss at *
  have hmove := moveParts_eq m (r.parts.eraseIdx mx) (fun p hp => hkeys p (hsub.subset hp)) []
  rw [hks, List.nil_append] at hmove
  have hinj : ∀ x y, x ∈ m.keys → m.keys.idxOf x = m.keys.idxOf y → x = y := by
    intro x y hx he
    have h1 := getElem?_idxOf' hx
    have hy : y ∈ m.keys := by
      rw [← List.idxOf_lt_length_iff, ← he]; exact List.idxOf_lt_length_iff.2 hx
    have h2 := getElem?_idxOf' hy
    rw [he] at h1; rw [h1] at h2; injection h2
  have hkf : kss.flatten = (r.parts.eraseIdx mx).flatten.map m.keys.idxOf := by
    rw [← hks, List.map_flatten]
  have hknd : kss.flatten.Nodup := by
    rw [hkf]
    refine List.Nodup.map_on ?_ (hnd.sublist (sublist_flatten hsub))
    intro x hx y _ he
    obtain ⟨p, hp, hxp⟩ := List.mem_flatten.1 hx
    exact hinj x y (hkeys p (hsub.subset hp) x hxp) he
  have hkid : ∀ k ∈ kss.flatten, m.data[k]? = some r.id := by
    intro k hk
    rw [hkf] at hk
    obtain ⟨x, hx, rfl⟩ := List.mem_map.1 hk
    obtain ⟨p, hp, hxp⟩ := List.mem_flatten.1 hx
    obtain ⟨k, hk1, hk2⟩ := (find_iff h x r.id).1 (hin p (hsub.subset hp) x hxp)
    rw [idxOf_of_getElem? h.keys hk1]; exact hk2
  have hid : r.id < m.size := by
    obtain ⟨p, hp⟩ : ∃ p, p ∈ r.parts := by
      cases hh : r.parts with
      | nil => rw [hh] at hl; simp at hl
      | cons p ps => exact ⟨p, by simp⟩
    obtain ⟨x, hx⟩ := List.exists_mem_of_ne_nil _ (hne p hp)
    exact find_lt h (hin p hp x hx)
  have hcl : ∃ cls, m.classes[r.id]? = some cls := ⟨_, List.getElem?_eq_getElem (by exact hid)⟩
  obtain ⟨cls, hcls⟩ := hcl
  have hklen : kss.length + 1 = r.parts.length := by
    rw [← hks, List.length_map, List.length_eraseIdx, if_pos hmx]; omega
  have hid' : r.id < m.classes.length := hid
  have hcm := h.cls
  -- data of a key that moves, and of one that does not
  have hd1 : ∀ (j k : Nat) (ks : List Nat), kss[j]? = some ks → k ∈ ks →
      (setParts m.data kss m.classes.length)[k]? = some (m.classes.length + j) := by
    intro j k ks hj hk
    refine setParts_mem _ _ _ hknd hj hk ?_
    have := hkid k (List.mem_flatten.2 ⟨ks, List.mem_of_getElem? hj, hk⟩)
    exact (List.getElem?_eq_some_iff.1 this).1
  have hd2 : ∀ k, k ∉ kss.flatten → (setParts m.data kss m.classes.length)[k]? = m.data[k]? :=
    fun k hk => setParts_not _ _ _ hk
  have hcn : cls.Nodup := by have := h.nodup r.id; rwa [hcls] at this
  generalize hD : setParts m.data kss m.classes.length = D at *
  have hinv : Inv (RMap.mk m.keys D
      ((m.classes ++ kss).set r.id (diffG (sortBy ltB cls) (sortBy ltB kss.flatten)))) := by
    refine ⟨h.keys, by rw [← hD, setParts_length]; exact h.len, fun k c => ?_, fun c => ?_⟩
    · simp only
      rw [List.getElem?_set]
      by_cases h1 : r.id = c
      · subst h1
        rw [if_pos rfl, if_pos (by rw [List.length_append]; omega), Option.getD_some,
          mem_diffG (sortBy_strict hcn) (sortBy_incr _), mem_sortBy, mem_sortBy]
        have := hcm k r.id
        rw [hcls, Option.getD_some] at this
        rw [this]
        constructor
        · rintro ⟨h2, h3⟩
          rw [hd2 k h3]; exact h2
        · intro h2
          have h3 : k ∉ kss.flatten := by
            intro h3
            obtain ⟨ks, hks', hk⟩ := List.mem_flatten.1 h3
            obtain ⟨j, hj⟩ := List.mem_iff_getElem?.1 hks'
            rw [hd1 j k ks hj hk] at h2
            injection h2 with h2; omega
          rw [hd2 k h3] at h2
          exact ⟨h2, h3⟩
      · rw [if_neg h1, List.getElem?_append]
        by_cases h2 : c < m.classes.length
        · rw [if_pos h2, hcm]
          by_cases h3 : k ∈ kss.flatten
          · obtain ⟨ks, hks', hk⟩ := List.mem_flatten.1 h3
            obtain ⟨j, hj⟩ := List.mem_iff_getElem?.1 hks'
            rw [hd1 j k ks hj hk, hkid k h3]
            constructor
            · intro h4; injection h4 with h4; exact absurd h4 h1
            · intro h4; injection h4 with h4; omega
          · rw [hd2 k h3]
        · rw [if_neg h2]
          constructor
          · intro h3
            cases hj : kss[c - m.classes.length]? with
            | none => rw [hj] at h3; simp at h3
            | some ks =>
              rw [hj] at h3
              rw [hd1 _ k ks hj h3]; congr 1; omega
          · intro h3
            by_cases h4 : k ∈ kss.flatten
            · obtain ⟨ks, hks', hk⟩ := List.mem_flatten.1 h4
              obtain ⟨j, hj⟩ := List.mem_iff_getElem?.1 hks'
              rw [hd1 j k ks hj hk] at h3
              injection h3 with h3
              subst h3
              rw [Nat.add_sub_cancel_left, hj]; exact hk
            · rw [hd2 k h4] at h3
              have := (hcm k c).2 h3
              rw [List.getElem?_eq_none (by omega)] at this
              simp at this
    · simp only
      rw [List.getElem?_set]
      by_cases h1 : r.id = c
      · rw [if_pos h1, if_pos (by rw [List.length_append]; omega), Option.getD_some]
        exact (sortBy_strict hcn).nodup.sublist (diffG_sublist _ _)
      · rw [if_neg h1, List.getElem?_append]
        by_cases h2 : c < m.classes.length
        · rw [if_pos h2]; exact h.nodup c
        · rw [if_neg h2]
          cases hj : kss[c - m.classes.length]? with
          | none => exact List.nodup_nil
          | some ks =>
            exact (List.nodup_flatten.1 hknd).1 ks (List.mem_of_getElem? hj)
  refine ⟨_, ?_, hinv, rfl, ?_, ?_, ?_⟩
  · unfold refine
    rw [if_neg (by omega), hM, hfold, hmove]
    simp only [Option.bind_some]
    rw [List.getElem?_append_left hid', hcls]
    rfl
  · unfold size
    simp only [List.length_set, List.length_append]
    omega
  · intro i p x hp hx
    have hpm := List.mem_of_getElem? hp
    obtain ⟨k, hk1, hk2⟩ := (find_iff h x r.id).1 (hin p hpm x hx)
    have hkx := idxOf_of_getElem? h.keys hk1
    rw [find_iff hinv]
    refine ⟨k, hk1, ?_⟩
    simp only
    have hmoved : ∀ j : Nat, (r.parts.eraseIdx mx)[j]? = some p → D[k]? = some (m.classes.length + j) := by
      intro j hj
      refine hd1 j k (p.map m.keys.idxOf) ?_ (List.mem_map.2 ⟨x, hx, hkx⟩)
      rw [← hks, List.getElem?_map, hj]; rfl
    by_cases h1 : i = mx
    · rw [if_pos h1]
      subst h1
      rw [hd2 k ?_]
      · exact hk2
      · intro hk
        rw [hkf] at hk
        obtain ⟨y, hy, hyk⟩ := List.mem_map.1 hk
        obtain ⟨q, hq, hyq⟩ := List.mem_flatten.1 hy
        have hxy : x = y := hinj x y (hkeys p hpm x hx) (by rw [hkx, hyk])
        subst hxy
        -- `x` would be in two parts
        have hperm := List.getElem_cons_eraseIdx_perm hmx
        have hpe : r.parts[i] = p := by
          have := List.getElem?_eq_getElem hmx
          rw [this] at hp; injection hp
        rw [hpe] at hperm
        have := (hperm.flatten).nodup_iff.2 hnd
        rw [List.flatten_cons, List.nodup_append] at this
        exact this.2.2 x hx x hy rfl
    · rw [if_neg h1]
      by_cases h2 : i < mx
      · rw [if_pos h2]
        exact hmoved i (by rw [List.getElem?_eraseIdx, if_pos h2]; exact hp)
      · rw [if_neg h2]
        refine hmoved (i - 1) ?_
        rw [List.getElem?_eraseIdx, if_neg (by omega)]
        rw [show i - 1 + 1 = i by omega]; exact hp
  · intro x hx
    by_cases hxk : x ∈ m.keys
    · obtain ⟨c, hc⟩ := find_isSome hxk
      rw [hc, find_iff hinv]
      obtain ⟨k, hk1, hk2⟩ := (find_iff h x c).1 hc
      refine ⟨k, hk1, ?_⟩
      simp only
      rw [hd2 k ?_]
      · exact hk2
      · intro hk
        rw [hkf] at hk
        obtain ⟨y, hy, hyk⟩ := List.mem_map.1 hk
        have hxy : x = y := hinj x y hxk (by rw [hyk, idxOf_of_getElem? h.keys hk1])
        subst hxy
        exact hx ((sublist_flatten hsub).subset hy)
    · rw [(find_none x).2 hxk]
      exact (find_none x).2 hxk

/-- The hypotheses of `refine`, as asserted by it (with the disjointness of the parts). -/
structure Fits (m : RMap α) (r : Refinement α) : Prop where
  mem : ∀ p ∈ r.parts, ∀ x ∈ p, m.find x = some r.id
  ne : ∀ p ∈ r.parts, p ≠ []
  nodup : r.parts.flatten.Nodup

/-- The classes of `m'` are parts of the classes of `m`. -/
structure Splits (m m' : RMap α) : Prop where
  keys : m'.keys = m.keys
  size : m.size ≤ m'.size
  same : ∀ x y, x ∈ m.keys → y ∈ m.keys → m'.find x = m'.find y → m.find x = m.find y
  full : (∀ c < m.size, ∃ x, m.find x = some c) → ∀ c < m'.size, ∃ x, m'.find x = some c

theorem Splits.refl (m : RMap α) : Splits m m := ⟨rfl, Nat.le_refl _, fun _ _ _ _ h => h, fun h => h⟩

theorem Splits.trans {m m' m'' : RMap α} (h : Splits m m') (h' : Splits m' m'') : Splits m m'' :=
  ⟨h'.keys.trans h.keys, Nat.le_trans h.size h'.size,
    fun x y hx hy he => h.same x y hx hy (h'.same x y (by rw [h.keys]; exact hx) (by rw [h.keys]; exact hy) he),
    fun hf => h'.full (h.full hf)⟩

theorem refine_splits {m : RMap α} (h : Inv m) {r : Refinement α} (hr : Fits m r) :
    ∃ m', m.refine r = some m' ∧ Inv m' ∧ Splits m m' ∧
      (∀ x, m.find x ≠ some r.id → m'.find x = m.find x) ∧
      (∀ (i j : Nat) (p q : List α) (x y : α), r.parts[i]? = some p → r.parts[j]? = some q → i ≠ j →
        x ∈ p → y ∈ q → m'.find x ≠ m'.find y) := by
  by_cases hl : 2 ≤ r.parts.length
  · obtain ⟨m', h1, h2, h3, h4, h5, h6⟩ := refine_spec h hl hr.mem hr.ne hr.nodup
    have hmx := maxIdx_lt r.parts (by intro hh; rw [hh] at hl; simp at hl)
    generalize maxIdx r.parts = mx at *
    have hid : r.id < m.size := by
      have hp0 : r.parts[mx]? = some r.parts[mx] := List.getElem?_eq_getElem hmx
      obtain ⟨x, hx⟩ := List.exists_mem_of_ne_nil _ (hr.ne _ (List.mem_of_getElem? hp0))
      exact find_lt h (hr.mem _ (List.mem_of_getElem? hp0) x hx)
    have hold : ∀ x ∈ r.parts.flatten, m.find x = some r.id := by
      intro x hx
      obtain ⟨p, hp, hxp⟩ := List.mem_flatten.1 hx
      exact hr.mem p hp x hxp
    have hnew : ∀ x ∈ r.parts.flatten, ∃ c, m'.find x = some c ∧ (c = r.id ∨ m.size ≤ c) := by
      intro x hx
      obtain ⟨p, hp, hxp⟩ := List.mem_flatten.1 hx
      obtain ⟨i, hi⟩ := List.mem_iff_getElem?.1 hp
      refine ⟨_, h5 i p x hi hxp, ?_⟩
      grind
    refine ⟨m', h1, h2, ⟨h3, by omega, ?_, ?_⟩, ?_, ?_⟩
    · intro x y hx hy he
      by_cases hx' : x ∈ r.parts.flatten <;> by_cases hy' : y ∈ r.parts.flatten
      · rw [hold x hx', hold y hy']
      · obtain ⟨c, hc, hc'⟩ := hnew x hx'
        rw [hold x hx', ← h6 y hy', ← he, hc]
        rcases hc' with rfl | hc'
        · rfl
        · have := find_lt h (x := y) (c := c) (by rw [← h6 y hy', ← he, hc])
          omega
      · obtain ⟨c, hc, hc'⟩ := hnew y hy'
        rw [hold y hy', ← h6 x hx', he, hc]
        rcases hc' with rfl | hc'
        · rfl
        · have := find_lt h (x := x) (c := c) (by rw [← h6 x hx', he, hc])
          omega
      · rw [← h6 x hx', ← h6 y hy', he]
    · intro hf c hc
      have hpart : ∀ (i : Nat), i < r.parts.length → ∃ p x, r.parts[i]? = some p ∧ x ∈ p := by
        intro i hi
        have hp0 : r.parts[i]? = some r.parts[i] := List.getElem?_eq_getElem hi
        obtain ⟨x, hx⟩ := List.exists_mem_of_ne_nil _ (hr.ne _ (List.mem_of_getElem? hp0))
        exact ⟨_, x, hp0, hx⟩
      by_cases hc1 : c < m.size
      · by_cases hc2 : c = r.id
        · obtain ⟨p, x, hp, hx⟩ := hpart mx hmx
          exact ⟨x, by rw [h5 mx p x hp hx, if_pos rfl, hc2]⟩
        · obtain ⟨x, hx⟩ := hf c hc1
          refine ⟨x, ?_⟩
          rw [h6 x]
          · exact hx
          · intro hx'
            rw [hold x hx'] at hx
            injection hx with hx; exact hc2 hx.symm
      · by_cases hc2 : c - m.size < mx
        · obtain ⟨p, x, hp, hx⟩ := hpart (c - m.size) (by omega)
          refine ⟨x, ?_⟩
          rw [h5 _ p x hp hx, if_neg (by omega), if_pos hc2]
          congr 1; omega
        · obtain ⟨p, x, hp, hx⟩ := hpart (c - m.size + 1) (by omega)
          refine ⟨x, ?_⟩
          rw [h5 _ p x hp hx, if_neg (by omega), if_neg (by omega)]
          congr 1; omega
    · intro x hx
      exact h6 x fun hx' => hx (hold x hx')
    · intro i j p q x y hp hq hij hx hy he
      rw [h5 i p x hp hx, h5 j q y hq hy] at he
      injection he with he
      grind
  · refine ⟨m, ?_, h, Splits.refl m, fun _ _ => rfl, ?_⟩
    · unfold refine; rw [if_pos (by omega)]
    · intro i j p q x y hp hq hij
      have h1 := (List.getElem?_eq_some_iff.1 hp).1
      have h2 := (List.getElem?_eq_some_iff.1 hq).1
      omega

theorem refineHeader_splits {m : RMap α} (h : Inv m) {hd : HeaderRefinement α} (hf : ∀ r ∈ hd, Fits m r)
    (hids : (hd.map Refinement.id).Nodup) :
    ∃ m', m.refineHeader hd = some m' ∧ Inv m' ∧ Splits m m' ∧
      (∀ x, (∀ r ∈ hd, m.find x ≠ some r.id) → m'.find x = m.find x) ∧
      (∀ r ∈ hd, ∀ (i j : Nat) (p q : List α) (x y : α), r.parts[i]? = some p → r.parts[j]? = some q → i ≠ j →
        x ∈ p → y ∈ q → m'.find x ≠ m'.find y) := by
  induction hd generalizing m with
  | nil => exact ⟨m, rfl, h, Splits.refl m, fun _ _ => rfl, by simp⟩
  | cons r hd ih =>
    rw [List.map_cons, List.nodup_cons] at hids
    obtain ⟨m1, a1, a2, a3, a4, a5⟩ := refine_splits h (hf r (by simp))
    have hne : ∀ r' ∈ hd, r'.id ≠ r.id := fun r' hr' he => hids.1 (he ▸ List.mem_map_of_mem hr')
    have hfit : ∀ r' ∈ hd, Fits m1 r' := by
      intro r' hr'
      have := hf r' (by simp [hr'])
      refine ⟨fun p hp x hx => ?_, this.ne, this.nodup⟩
      have h1 := this.mem p hp x hx
      rw [a4 x]
      · exact h1
      · rw [h1]; intro he; injection he with he; exact hne r' hr' he
    obtain ⟨m', b1, b2, b3, b4, b5⟩ := ih a2 hfit hids.2
    refine ⟨m', ?_, b2, a3.trans b3, fun x hx => ?_, fun r' hr' => ?_⟩
    · unfold refineHeader at b1 ⊢
      rw [List.foldlM_cons, a1]; exact b1
    · have h1 := a4 x (hx r (by simp))
      rw [b4 x (fun r' hr' => by rw [h1]; exact hx r' (by simp [hr'])), h1]
    · rcases List.mem_cons.1 hr' with rfl | hr'
      · intro i j p q x y hp hq hij hx hy he
        have hk : ∀ p ∈ r'.parts, ∀ x ∈ p, x ∈ m1.keys := by
          intro p hp x hx
          have h1 := (hf r' (by simp)).mem p hp x hx
          by_cases h2 : x ∈ m1.keys
          · exact h2
          · rw [a3.keys, ← find_none, h1] at h2; cases h2
        exact a5 i j p q x y hp hq hij hx hy
          (b3.same x y (hk p (List.mem_of_getElem? hp) x hx) (hk q (List.mem_of_getElem? hq) y hy) he)
      · exact b5 r' hr'

/-! ## Encoding labels -/

theorem mapM_find {m : RMap α} (xs : List α) (hx : ∀ x ∈ xs, x ∈ m.keys) :
    ∃ ids, xs.mapM m.find = some ids ∧ ∀ c, c ∈ ids ↔ ∃ x ∈ xs, m.find x = some c := by
  induction xs with
  | nil => exact ⟨[], by simp, by simp⟩
  | cons x xs ih =>
    obtain ⟨ids, h1, h2⟩ := ih fun y hy => hx y (by simp [hy])
    obtain ⟨c, hc⟩ := find_isSome (hx x (by simp))
    refine ⟨c :: ids, by simp [List.mapM_cons, hc, h1], fun c' => ?_⟩
    rw [List.mem_cons, h2]
    constructor
    · rintro (rfl | ⟨y, hy, h⟩)
      · exact ⟨x, by simp, hc⟩
      · exact ⟨y, by simp [hy], h⟩
    · rintro ⟨y, hy, h⟩
      rcases List.mem_cons.1 hy with rfl | hy
      · rw [hc] at h; injection h with h; exact .inl h.symm
      · exact .inr ⟨y, hy, h⟩

theorem encodeMany_spec {m : RMap α} (xs : List α) (hx : ∀ x ∈ xs, x ∈ m.keys) :
    ∃ ids, m.encodeMany xs = some ids ∧ Strict ids ∧ ∀ c, c ∈ ids ↔ ∃ x ∈ xs, m.find x = some c := by
  obtain ⟨ids, h1, h2⟩ := mapM_find xs hx
  obtain ⟨h3, h4⟩ := uniqueBy_spec (sortBy_incr ids)
  refine ⟨_, by rw [encodeMany, h1]; rfl, h3, fun c => ?_⟩
  rw [h4, mem_sortBy, h2]

theorem encodeLabels_spec {L : Type} [LinearOrder L] {m : RMap L} (h : Inv m) (labels : List L)
    (hs : Incr labels) (hx : ∀ x ∈ labels, x ∈ m.keys) (neg : Bool) :
    ∃ ids, m.encodeLabels labels neg = some ids ∧ Strict ids ∧
      ∀ c, c ∈ ids ↔ (∃ x ∈ labels, m.find x = some c) ∧
        (neg = true → ∃ x, m.find x = some c ∧ x ∉ labels) := by
  obtain ⟨ids, h1, h2, h3⟩ := encodeMany_spec labels hx
  unfold encodeLabels
  rw [h1]
  cases neg with
  | false => exact ⟨ids, by simp, h2, fun c => by simp [h3]⟩
  | true =>
    refine ⟨_, rfl, ?_⟩
    simp only [if_true]
    refine ⟨List.Pairwise.sublist List.filter_sublist h2, fun c => ?_⟩
    rw [List.mem_filter, h3]
    refine and_congr_right fun _ => ?_
    have := includesG_iff hs (sortBy_strict (nodup_concrete h c))
    rw [Bool.not_eq_true', ← Bool.not_eq_true, this]
    simp only [mem_sortBy, mem_concrete h]
    constructor
    · intro hh _
      by_cases hex : ∃ x, m.find x = some c ∧ x ∉ labels
      · exact hex
      · refine absurd (fun x hx => ?_) hh
        by_cases hxl : x ∈ labels
        · exact hxl
        · exact absurd ⟨x, hx, hxl⟩ hex
    · intro hh h4
      obtain ⟨x, hx1, hx2⟩ := hh trivial
      exact hx2 (h4 x hx1)

end RMap

/-! ## `AbstractionMapping` -/

namespace AMap

/-- What holds of an `AbstractionMapping`. -/
structure Inv (fn : α → β) (m : AMap α β) : Prop where
  map : RMap.Inv m.map
  abs : m.abs.Nodup
  len : m.map.classes.length = m.abs.length
  fn : ∀ x c, m.map.find x = some c → m.abs[c]? = some (fn x)

theorem inv_empty (fn : α → β) : Inv fn ({} : AMap α β) :=
  ⟨RMap.inv_empty, List.nodup_nil, rfl, fun x c h => by simp [RMap.find, RMap.keyId] at h⟩

theorem setInsert_spec (l : List β) (v : β) (h : l.Nodup) :
    (setInsert l v).2.2.Nodup ∧ (∃ t, (setInsert l v).2.2 = l ++ t) ∧
    (setInsert l v).2.2[(setInsert l v).2.1]? = some v ∧ ((setInsert l v).1 = true ↔ v ∉ l) ∧
    (∀ w, w ∈ (setInsert l v).2.2 ↔ w ∈ l ∨ w = v) ∧
    (setInsert l v).2.2.length = (if v ∈ l then l.length else l.length + 1) ∧
    (setInsert l v).2.1 ≤ l.length ∧ ((setInsert l v).2.1 < l.length ↔ v ∈ l) := by
  unfold setInsert
  by_cases hv : v ∈ l
  · simp only [if_pos hv]
    have := List.idxOf_lt_length_iff.2 hv
    refine ⟨h, ⟨[], by simp⟩, RMap.getElem?_idxOf' hv, by simp [hv], fun w => ⟨.inl, ?_⟩, trivial, by omega, by simp [hv, this]⟩
    rintro (h | rfl)
    · exact h
    · exact hv
  · simp only [if_neg hv]
    refine ⟨?_, ⟨[v], rfl⟩, by simp, by simp [hv], by simp, by simp, Nat.le_refl _, by simp [hv]⟩
    rw [List.nodup_append]
    exact ⟨h, by simp, fun a ha b hb => by simp at hb; subst hb; intro he; exact hv (he ▸ ha)⟩

theorem grow_get (cs : List (List Nat)) (v c : Nat) : ((grow cs v)[c]?).getD [] = (cs[c]?).getD [] := by
  unfold grow
  split
  · rw [List.getElem?_append]
    split
    · rfl
    · next h1 h2 =>
      rw [List.getElem?_eq_none (l := cs) (by omega), List.getElem?_replicate]
      split <;> rfl
  · rfl

theorem grow_length (cs : List (List Nat)) (v : Nat) (h : v ≤ cs.length) :
    (grow cs v).length = if v < cs.length then cs.length else cs.length + 1 := by
  unfold grow
  split
  · rw [List.length_append, List.length_replicate, if_neg (by omega)]; omega
  · rw [if_pos (by omega)]

theorem inv_grow {m : RMap α} (h : RMap.Inv m) (v : Nat) :
    RMap.Inv { m with classes := grow m.classes v } :=
  ⟨h.keys, h.len, fun k c => by simp only [grow_get]; exact h.cls k c, fun c => by simp only [grow_get]; exact h.nodup c⟩

theorem getElem?_append_of_some {T : Type} {l t : List T} {i : Nat} {x : T} (h : l[i]? = some x) :
    (l ++ t)[i]? = some x := by
  rw [List.getElem?_append_left (List.getElem?_eq_some_iff.1 h).1]; exact h

theorem insertAbstract_spec {fn : α → β} {m : AMap α β} (h : Inv fn m) (v : β) :
    Inv fn (insertAbstract m v).1 ∧ (insertAbstract m v).1.map.keys = m.map.keys ∧
    (∃ t, (insertAbstract m v).1.abs = m.abs ++ t) ∧ (∀ w, w ∈ (insertAbstract m v).1.abs ↔ w ∈ m.abs ∨ w = v) ∧
    ((insertAbstract m v).2.1 = true ↔ v ∉ m.abs) ∧
    (insertAbstract m v).1.abs[(insertAbstract m v).2.2]? = some v := by
  obtain ⟨h1, ⟨t, h2⟩, h3, h4, h5, h6, h7, h8⟩ := setInsert_spec m.abs v h.abs
  unfold insertAbstract
  refine ⟨⟨inv_grow h.map _, h1, ?_, ?_⟩, rfl, ⟨t, h2⟩, h5, h4, h3⟩
  · simp only
    rw [grow_length _ _ (by rw [h.len]; exact h7), h6, h.len]
    by_cases hv : v ∈ m.abs
    · rw [if_pos hv, if_pos (h8.2 hv)]
    · rw [if_neg hv, if_neg (fun hh => hv (h8.1 hh))]
  · intro x c hc
    simp only
    rw [h2]
    exact getElem?_append_of_some (h.fn x c hc)

theorem insert_spec {fn : α → β} {m : AMap α β} (h : Inv fn m) (x : α) (ig : Bool) :
    Inv fn (insert fn m x ig).1 ∧
    (∀ y, y ∈ (insert fn m x ig).1.map.keys ↔ y ∈ m.map.keys ∨ (ig = false ∧ y = x)) ∧
    (∃ t, (insert fn m x ig).1.abs = m.abs ++ t) ∧
    (∀ w, w ∈ (insert fn m x ig).1.abs ↔ w ∈ m.abs ∨ w = fn x) ∧
    ((insert fn m x ig).2.1 = true ↔ fn x ∉ m.abs) ∧
    (insert fn m x ig).1.abs[(insert fn m x ig).2.2]? = some (fn x) := by
  unfold insert
  by_cases hc : (!ig && decide (x ∈ m.map.keys)) = true
  · rw [if_pos hc]
    rw [Bool.and_eq_true, Bool.not_eq_true', decide_eq_true_eq] at hc
    obtain ⟨c, hcx⟩ := RMap.find_isSome hc.2
    have hab := h.fn x c hcx
    have hm := List.mem_of_getElem? hab
    refine ⟨h, fun y => ⟨.inl, ?_⟩, ⟨[], by simp⟩, fun w => ⟨.inl, ?_⟩, by simp [hm], by simp only [hcx, Option.getD_some]; exact hab⟩
    · rintro (h | ⟨_, rfl⟩)
      · exact h
      · exact hc.2
    · rintro (h | rfl)
      · exact h
      · exact hm
  · rw [if_neg hc]
    obtain ⟨h1, ⟨t, h2⟩, h3, h4, h5, h6, h7, h8⟩ := setInsert_spec m.abs (fn x) h.abs
    have hlen : (grow m.map.classes (setInsert m.abs (fn x)).2.1).length = (setInsert m.abs (fn x)).2.2.length := by
      rw [grow_length _ _ (by rw [h.len]; exact h7), h6, h.len]
      by_cases hv : fn x ∈ m.abs
      · rw [if_pos hv, if_pos (h8.2 hv)]
      · rw [if_neg hv, if_neg (fun hh => hv (h8.1 hh))]
    cases ig with
    | true =>
      simp only [if_true]
      refine ⟨⟨inv_grow h.map _, h1, hlen, ?_⟩, by simp, ⟨t, h2⟩, h5, h4, h3⟩
      intro y c hy
      rw [h2]; exact getElem?_append_of_some (h.fn y c hy)
    | false =>
      have hx : x ∉ m.map.keys := by simpa using hc
      simp only [Bool.false_eq_true, if_false]
      generalize setInsert m.abs (fn x) = r at *
      have hnew : RMap.Inv (RMap.mk (m.map.keys ++ [x]) (m.map.data ++ [r.2.1])
          ((grow m.map.classes r.2.1).modify r.2.1 (· ++ [m.map.keys.length]))) := by
        have hr : r.2.1 < (grow m.map.classes r.2.1).length := by
          rw [hlen]; exact (List.getElem?_eq_some_iff.1 h3).1
        have hg : ∀ c : Nat, (((grow m.map.classes r.2.1).modify r.2.1 (· ++ [m.map.keys.length]))[c]?).getD [] =
            if r.2.1 = c then (m.map.classes[c]?).getD [] ++ [m.map.keys.length] else (m.map.classes[c]?).getD [] := by
          intro c
          rw [List.getElem?_modify, ← grow_get _ r.2.1 c]
          by_cases he : r.2.1 = c
          · subst he
            rw [List.getElem?_eq_getElem hr]
            simp
          · simp [he]
        have hold : ∀ (k c : Nat), k ∈ (m.map.classes[c]?).getD [] → k < m.map.keys.length := by
          intro k c hk
          rw [← h.map.len]
          exact (List.getElem?_eq_some_iff.1 ((h.map.cls k c).1 hk)).1
        refine ⟨?_, by simp [h.map.len], fun k c => ?_, fun c => ?_⟩
        · simp only
          rw [List.nodup_append]
          exact ⟨h.map.keys, by simp, fun a ha b hb => by simp at hb; subst hb; intro he; exact hx (he ▸ ha)⟩
        · simp only
          rw [hg, List.getElem?_append]
          by_cases hk : k < m.map.data.length
          · rw [if_pos hk, ← h.map.cls]
            have : k ≠ m.map.keys.length := by rw [← h.map.len]; omega
            split
            · simp [this]
            · rfl
          · rw [if_neg hk]
            have hk2 : k ∉ (m.map.classes[c]?).getD [] := fun hh => hk (by rw [h.map.len]; exact hold k c hh)
            rw [List.getElem?_singleton]
            rw [h.map.len] at hk
            by_cases he : r.2.1 = c
            · rw [if_pos he]
              simp only [List.mem_append, hk2, List.mem_singleton, false_or, h.map.len]
              constructor
              · intro hh; simp [hh, he]
              · intro hh
                by_cases h0 : k - m.map.keys.length = 0
                · omega
                · rw [if_neg h0] at hh; cases hh
            · rw [if_neg he]
              simp only [hk2, false_iff]
              intro hh
              split at hh
              · injection hh with hh; exact he hh
              · cases hh
        · simp only
          rw [hg]
          split
          · rw [List.nodup_append]
            refine ⟨h.map.nodup c, by simp, fun a ha b hb => ?_⟩
            simp at hb; subst hb
            have := hold a c ha
            omega
          · exact h.map.nodup c
      refine ⟨⟨hnew, h1, by simp [hlen], ?_⟩, by simp, ⟨t, h2⟩, h5, h4, h3⟩
      intro y c hy
      simp only at hy ⊢
      obtain ⟨k, hk1, hk2⟩ := (RMap.find_iff hnew y c).1 hy
      simp only at hk1 hk2
      by_cases hk : k < m.map.keys.length
      · rw [List.getElem?_append_left hk] at hk1
        rw [List.getElem?_append_left (by rw [h.map.len]; exact hk)] at hk2
        rw [h2]
        exact getElem?_append_of_some (h.fn y c ((RMap.find_iff h.map y c).2 ⟨k, hk1, hk2⟩))
      · have hk' : k < (m.map.keys ++ [x]).length := (List.getElem?_eq_some_iff.1 hk1).1
        rw [List.length_append, List.length_singleton] at hk'
        obtain rfl : k = m.map.keys.length := by omega
        simp at hk1
        rw [List.getElem?_append_right (by rw [h.map.len]), h.map.len] at hk2
        simp at hk2
        subst hk1 hk2
        exact h3

end AMap

end Verif
