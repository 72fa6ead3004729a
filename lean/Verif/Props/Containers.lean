import Verif.Proofs.VectorSet
import Verif.Proofs.Pda
import Mathlib.Data.Int.Order.Basic

/-!
# C34: `vector_map` and `vector_set` are finite maps and sets
-/

namespace Verif.Props

/-- A mutating call on a `vector_map`. -/
inductive MapOp (K V : Type) where
  | emplace (k : K) (v : V)
  | assign (k : K) (v : V)

section
variable {K V : Type} [DecidableEq K]

/-- The key of a call. -/
def MapOp.key : MapOp K V → K
  | .emplace k _ => k
  | .assign k _ => k

/-- Specification: a finite map is a function `K → Option V`. -/
def specMap (f : K → Option V) : MapOp K V → K → Option V
  | .emplace k v => fun x => if x = k ∧ f k = none then some v else f x
  | .assign k v => fun x => if x = k then some v else f x

/-- The model of the call: new container, index of the returned iterator, returned flag. -/
def runMap (lt : K → K → Bool) (m : VMap K V) : MapOp K V → VMap K V × Nat × Bool
  | .emplace k v => m.emplace lt k v
  | .assign k v => m.insertOrAssign lt k v

theorem runMap_spec {lt : K → K → Bool} (hl : StrictTotal lt) {m : VMap K V} {f : K → Option V}
    (hs : m.Sorted lt) (hm : ∀ k v, (k, v) ∈ m ↔ f k = some v) (o : MapOp K V) :
    (runMap lt m o).1.Sorted lt ∧ (∀ k v, (k, v) ∈ (runMap lt m o).1 ↔ specMap f o k = some v) ∧
      (runMap lt m o).2.2 = (f o.key).isNone ∧
      ∃ v, (runMap lt m o).1[(runMap lt m o).2.1]? = some (o.key, v) := by
  have hfresh : ∀ k, (f k).isNone = true ↔ ∀ v, (k, v) ∉ m := by
    intro k
    rcases h : f k with _ | v
    · simp [hm, h]
    · simp [hm, h]
  cases o with
  | emplace k v =>
    refine ⟨VMap.emplace_sorted hl hs k v, ?_, ?_, VMap.emplace_idx hl hs k v⟩
    · intro k' v'
      rw [runMap, VMap.mem_emplace hl hs, specMap, hm, ← hfresh, Option.isNone_iff_eq_none]
      by_cases h : k' = k <;> by_cases h2 : f k = none <;> simp [h, h2, eq_comm (a := v)]
    · rw [Bool.eq_iff_iff, MapOp.key, hfresh]
      exact VMap.emplace_fresh hl hs k v
  | assign k v =>
    refine ⟨VMap.insertOrAssign_sorted hl hs k v, ?_, ?_, ?_⟩
    · intro k' v'
      rw [runMap, VMap.mem_insertOrAssign hl hs, specMap, hm]
      by_cases h : k' = k <;> simp [h, eq_comm (a := v)]
    · rw [Bool.eq_iff_iff, MapOp.key, hfresh, ← VMap.emplace_fresh hl hs k v]
      simp only [runMap, VMap.insertOrAssign, VMap.emplace]
      split
      · simp
      · split <;> simp
    · have h := VMap.emplace_idx hl hs k v
      revert h
      simp only [runMap, VMap.insertOrAssign, VMap.emplace, MapOp.key]
      split
      · exact id
      · rename_i e he
        split
        · exact id
        · rintro ⟨v', hv'⟩
          refine ⟨v, ?_⟩
          simp only at hv'
          simp [hv']

/-- C34, `vector_map`: after any sequence of calls from the empty container, `find` returns what the
abstract map holds, `contains` says whether it holds anything, the elements are strictly sorted, and
the next call reports correctly whether the key was new and returns an iterator to that key. -/
theorem c34_vector_map (lt : K → K → Bool) (hl : StrictTotal lt) (ops : List (MapOp K V)) :
    let m := ops.foldl (fun m o => (runMap lt m o).1) ([] : VMap K V)
    let f := ops.foldl specMap (fun _ => none)
    (∀ k, m.find lt k = f k) ∧ (∀ k, m.contains lt k = (f k).isSome) ∧
      m.Pairwise (fun a b => lt a.1 b.1 = true) ∧
      (∀ o, (runMap lt m o).2.2 = (f o.key).isNone ∧
        ∃ v, (runMap lt m o).1[(runMap lt m o).2.1]? = some (o.key, v)) := by
  intro m f
  have h : m.Sorted lt ∧ ∀ k v, (k, v) ∈ m ↔ f k = some v := by
    suffices h : ∀ (ops : List (MapOp K V)) (m : VMap K V) (f : K → Option V),
        m.Sorted lt → (∀ k v, (k, v) ∈ m ↔ f k = some v) →
        (ops.foldl (fun m o => (runMap lt m o).1) m).Sorted lt ∧
        ∀ k v, (k, v) ∈ ops.foldl (fun m o => (runMap lt m o).1) m ↔
          ops.foldl specMap f k = some v by
      exact h ops [] (fun _ => none) List.Pairwise.nil (by simp)
    intro ops
    induction ops with
    | nil => exact fun m f hs hm => ⟨hs, hm⟩
    | cons o ops ih =>
      intro m f hs hm
      obtain ⟨h1, h2, _⟩ := runMap_spec hl hs hm o
      exact ih _ _ h1 h2
  obtain ⟨hs, hm⟩ := h
  refine ⟨?_, ?_, hs, fun o => (runMap_spec hl hs hm o).2.2⟩
  · intro k
    rcases h : f k with _ | v
    · rcases h' : m.find lt k with _ | v
      · rfl
      · have := (hm k v).1 ((VMap.find_eq hl hs k v).1 h')
        rw [h] at this; cases this
    · exact (VMap.find_eq hl hs k v).2 ((hm k v).2 h)
  · intro k
    rw [Bool.eq_iff_iff, VMap.contains_eq hl hs, Option.isSome_iff_exists]
    exact exists_congr fun v => hm k v

/-- C34, `vector_set`: after any sequence of insertions the members are exactly the inserted
elements, `contains` decides membership, the elements are strictly sorted, and the next insertion
reports correctly whether the element was new. -/
theorem c34_vector_set (lt : K → K → Bool) (hl : StrictTotal lt) (ks : List K) :
    let m := ks.foldl (fun m k => (VSet.emplace lt m k).1) ([] : VSet K)
    (∀ k, k ∈ m ↔ k ∈ ks) ∧ (∀ k, VSet.contains lt m k = true ↔ k ∈ ks) ∧
      m.Pairwise (fun a b => lt a b = true) ∧
      (∀ k, (VSet.emplace lt m k).2 = true ↔ k ∉ ks) := by
  intro m
  have h : VSet.Sorted lt m ∧ ∀ k, k ∈ m ↔ k ∈ ks := by
    suffices h : ∀ (ks : List K) (m : VSet K), VSet.Sorted lt m →
        VSet.Sorted lt (ks.foldl (fun m k => (VSet.emplace lt m k).1) m) ∧
        ∀ k, k ∈ ks.foldl (fun m k => (VSet.emplace lt m k).1) m ↔ k ∈ m ∨ k ∈ ks by
      obtain ⟨h1, h2⟩ := h ks [] List.Pairwise.nil
      exact ⟨h1, fun k => by simpa using h2 k⟩
    intro ks
    induction ks with
    | nil => exact fun m hs => ⟨hs, by simp⟩
    | cons k ks ih =>
      intro m hs
      obtain ⟨h1, h2⟩ := ih _ (VSet.emplace_sorted hl hs k)
      refine ⟨h1, fun x => ?_⟩
      rw [List.foldl_cons, h2, VSet.mem_emplace hl, List.mem_cons, or_assoc]
  obtain ⟨hs, hm⟩ := h
  refine ⟨hm, fun k => ?_, hs, fun k => ?_⟩
  · rw [VSet.contains_eq hl hs, hm]
  · rw [VSet.emplace_fresh hl hs, hm]

end

/-- The hypothesis is met by the orders the code uses: machine integers and rules. -/
example : StrictTotal natLt := natLt_total
example : StrictTotal (Rule.lt : Rule Int → Rule Int → Bool) := Rule.lt_total
example : (([.emplace 3 'a', .emplace 1 'b', .emplace 3 'c', .assign 1 'd'] : List (MapOp Nat Char)).foldl
    (fun m o => (runMap natLt m o).1) []) = [(1, 'd'), (3, 'a')] := by decide

end Verif.Props
