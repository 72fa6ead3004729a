import Verif.Proofs.PAutText

/-!
# Different expressions have different actions, so a text is read in one way only
-/

namespace Verif

/-- The actions with which a value begins. -/
def NAct.starts : NAct → Bool
  | .dot => true
  | .neg => true
  | .label _ => true
  | .open => true
  | _ => false

theorem SVal.log_head (v : SVal String) : ∃ a t, v.log = a :: t ∧ a.starts = true := by
  cases v with
  | dot => exact ⟨_, _, rfl, rfl⟩
  | set neg l ls =>
    cases neg with
    | true => exact ⟨_, _, rfl, rfl⟩
    | false => exact ⟨.label l, _, rfl, rfl⟩
  | group e => exact ⟨_, _, rfl, rfl⟩

theorem SUn.log_head (u : SUn String) : ∃ a t, u.log = a :: t ∧ a.starts = true := by
  cases u with
  | mk v p =>
    obtain ⟨a, t, h1, h2⟩ := v.log_head
    exact ⟨a, t ++ (p.map NAct.post).toList ++ [.unary], by simp [SUn.log, h1], h2⟩

theorem SSeq.log_head (q : SSeq String) : ∃ a t, q.log0 = a :: t ∧ a.starts = true := by
  cases q with
  | one u => exact u.log_head
  | more u q =>
    obtain ⟨a, t, h1, h2⟩ := u.log_head
    exact ⟨a, t ++ q.log0, by simp [SSeq.log0, h1], h2⟩

theorem labels_inj : ∀ (ls ks : List String) (x y : List NAct), ls.map NAct.label ++ .set :: x = ks.map .label ++ .set :: y →
    ls = ks ∧ x = y
  | [], [], x, y, h => by simpa using h
  | [], k :: ks, x, y, h => by simp at h
  | l :: ls, [], x, y, h => by simp at h
  | l :: ls, k :: ks, x, y, h => by
    simp only [List.map_cons, List.cons_append, List.cons.injEq, NAct.label.injEq] at h
    obtain ⟨rfl, h⟩ := h
    obtain ⟨rfl, rfl⟩ := labels_inj ls ks x y h
    exact ⟨rfl, rfl⟩

mutual
theorem SVal.log_inj : ∀ (v v' : SVal String) (x y : List NAct), v.log ++ x = v'.log ++ y → v = v' ∧ x = y
  | .dot, .dot, x, y, h => by simpa [SVal.log] using h
  | .dot, .set neg l ls, x, y, h => by cases neg <;> simp [SVal.log] at h
  | .dot, .group e, x, y, h => by simp [SVal.log] at h
  | .set neg l ls, .dot, x, y, h => by cases neg <;> simp [SVal.log] at h
  | .set neg l ls, .group e, x, y, h => by cases neg <;> simp [SVal.log] at h
  | .set neg l ls, .set neg' l' ls', x, y, h => by
    have key : neg = neg' ∧ (l :: ls).map NAct.label ++ .set :: x = (l' :: ls').map .label ++ .set :: y := by
      cases neg <;> cases neg' <;> simp_all [SVal.log]
    have hh := key
    clear h
    obtain ⟨rfl, h⟩ := hh
    have hh := labels_inj _ _ _ _ h
    clear h
    obtain ⟨h, rfl⟩ := hh
    cases h
    exact ⟨rfl, rfl⟩
  | .group e, .dot, x, y, h => by simp [SVal.log] at h
  | .group e, .set neg l ls, x, y, h => by cases neg <;> simp [SVal.log] at h
  | .group e, .group e', x, y, h => by
    simp only [SVal.log, List.cons_append, List.append_assoc, List.cons.injEq, true_and, List.nil_append] at h
    have hh := SAlt.log_inj e e' _ _ h
    clear h
    obtain ⟨rfl, h⟩ := hh
    simp only [List.cons.injEq, true_and] at h
    exact ⟨rfl, h⟩
theorem SUn.log_inj : ∀ (v v' : SUn String) (x y : List NAct), v.log ++ x = v'.log ++ y → v = v' ∧ x = y
  | .mk v p, .mk v' p', x, y, h => by
    simp only [SUn.log, List.append_assoc] at h
    have hh := SVal.log_inj v v' _ _ h
    clear h
    obtain ⟨rfl, h⟩ := hh
    cases p <;> cases p' <;> simp at h
    · exact ⟨rfl, h⟩
    · obtain ⟨rfl, rfl⟩ := h
      exact ⟨rfl, rfl⟩
theorem SSeq.log_inj : ∀ (v v' : SSeq String) (x y : List NAct), v.log0 ++ .seq :: x = v'.log0 ++ .seq :: y → v = v' ∧ x = y
  | .one u, .one u', x, y, h => by
    have hh := SUn.log_inj u u' _ _ h
    clear h
    obtain ⟨rfl, h⟩ := hh
    simp only [List.cons.injEq, true_and] at h
    exact ⟨rfl, h⟩
  | .one u, .more u' q, x, y, h => by
    simp only [SSeq.log0, List.append_assoc] at h
    have hh := SUn.log_inj u u' _ _ h
    clear h
    obtain ⟨rfl, h⟩ := hh
    obtain ⟨a, t, h1, h2⟩ := q.log_head
    rw [h1] at h
    simp only [List.cons_append, List.cons.injEq] at h
    rw [← h.1] at h2
    cases h2
  | .more u q, .one u', x, y, h => by
    simp only [SSeq.log0, List.append_assoc] at h
    have hh := SUn.log_inj u u' _ _ h
    clear h
    obtain ⟨rfl, h⟩ := hh
    obtain ⟨a, t, h1, h2⟩ := q.log_head
    rw [h1] at h
    simp only [List.cons_append, List.cons.injEq] at h
    rw [h.1] at h2
    cases h2
  | .more u q, .more u' q', x, y, h => by
    simp only [SSeq.log0, List.append_assoc] at h
    have hh := SUn.log_inj u u' _ _ h
    clear h
    obtain ⟨rfl, h⟩ := hh
    have hh := SSeq.log_inj q q' _ _ h
    clear h
    obtain ⟨rfl, h⟩ := hh
    exact ⟨rfl, h⟩
theorem SAlt.log_inj : ∀ (v v' : SAlt String) (x y : List NAct), v.log0 ++ .alt :: x = v'.log0 ++ .alt :: y → v = v' ∧ x = y
  | .one q, .one q', x, y, h => by
    simp only [SAlt.log0, List.append_assoc, List.cons_append, List.nil_append] at h
    have hh := SSeq.log_inj q q' _ _ h
    clear h
    obtain ⟨rfl, h⟩ := hh
    simp only [List.cons.injEq, true_and] at h
    exact ⟨rfl, h⟩
  | .one q, .more q' a, x, y, h => by
    simp only [SAlt.log0, List.append_assoc, List.cons_append, List.nil_append] at h
    have hh := SSeq.log_inj q q' _ _ h
    clear h
    obtain ⟨rfl, h⟩ := hh
    simp at h
  | .more q a, .one q', x, y, h => by
    simp only [SAlt.log0, List.append_assoc, List.cons_append, List.nil_append] at h
    have hh := SSeq.log_inj q q' _ _ h
    clear h
    obtain ⟨rfl, h⟩ := hh
    simp at h
  | .more q a, .more q' a', x, y, h => by
    simp only [SAlt.log0, List.append_assoc, List.cons_append, List.nil_append] at h
    have hh := SSeq.log_inj q q' _ _ h
    clear h
    obtain ⟨rfl, h⟩ := hh
    simp only [List.cons.injEq, true_and] at h
    have hh := SAlt.log_inj a a' _ _ h
    clear h
    obtain ⟨rfl, h⟩ := hh
    exact ⟨rfl, h⟩
end

theorem optLog_inj {e e' : Option (SAlt String)} (h : RegexText.optLog e = RegexText.optLog e') : e = e' := by
  have hne : ∀ a : SAlt String, a.log ≠ [] := fun a => by simp [SAlt.log]
  cases e with
  | none =>
    cases e' with
    | none => rfl
    | some a => exact absurd h.symm (hne a)
  | some a =>
    cases e' with
    | none => exact absurd h (hne a)
    | some a' =>
      have h : a.log0 ++ .alt :: [] = a'.log0 ++ .alt :: [] := h
      rw [(SAlt.log_inj a a' _ _ h).1]

/-! P-automata. -/

namespace PAutText

open RegexText

theorem states_inj : ∀ (ts us : List (StateTok String)) (x y : List PAct),
    ts.map PAct.state ++ .begin :: x = us.map .state ++ .begin :: y → ts = us ∧ x = y
  | [], [], x, y, h => by simpa using h
  | [], k :: ks, x, y, h => by simp at h
  | l :: ls, [], x, y, h => by simp at h
  | l :: ls, k :: ks, x, y, h => by
    simp only [List.map_cons, List.cons_append, List.cons.injEq, PAct.state.injEq] at h
    obtain ⟨rfl, h⟩ := h
    obtain ⟨rfl, rfl⟩ := states_inj ls ks x y h
    exact ⟨rfl, rfl⟩

theorem nfas_inj : ∀ (ts us : List NAct) (x y : List PAct),
    ts.map PAct.nfa ++ .finish :: x = us.map .nfa ++ .finish :: y → ts = us ∧ x = y
  | [], [], x, y, h => by simpa using h
  | [], k :: ks, x, y, h => by simp at h
  | l :: ls, [], x, y, h => by simp at h
  | l :: ls, k :: ks, x, y, h => by
    simp only [List.map_cons, List.cons_append, List.cons.injEq, PAct.nfa.injEq] at h
    obtain ⟨rfl, h⟩ := h
    obtain ⟨rfl, rfl⟩ := nfas_inj ls ks x y h
    exact ⟨rfl, rfl⟩

theorem plog_inj : ∀ (as bs : List (PAtom String String)), as.flatMap plog = bs.flatMap plog → as = bs
  | [], [], _ => rfl
  | [], b :: bs, h => by simp [plog] at h
  | a :: as, [], h => by simp [plog] at h
  | ⟨ts, e⟩ :: as, ⟨us, e'⟩ :: bs, h => by
    simp only [List.flatMap_cons, plog, List.append_assoc, List.cons_append, List.nil_append] at h
    have hh := states_inj _ _ _ _ h
    clear h
    obtain ⟨rfl, h⟩ := hh
    have hh := nfas_inj _ _ _ _ h
    clear h
    obtain ⟨h1, h⟩ := hh
    simp only [List.cons.injEq, true_and] at h
    rw [optLog_inj h1, plog_inj as bs h]

end PAutText

end Verif
