import Verif.Proofs.RegexTree
import Verif.Proofs.PAutParser
import Verif.Proofs.Regex

/-!
# The actions of an expression, in the order of its text
-/

namespace Verif

section Enc
variable {E : Type} (lab : E → String → E × Nat)

/-- The labels of a set, with any label function. -/
def labelsWith (t : E) : List String → E × List Nat
  | [] => (t, [])
  | l :: ls => ((labelsWith (lab t l).1 ls).1, (lab t l).2 :: (labelsWith (lab t l).1 ls).2)

mutual
def SVal.encWith (t : E) : SVal String → E × RVal
  | .dot => (t, .dot)
  | .set neg l ls => ((labelsWith lab (lab t l).1 ls).1, .set neg (lab t l).2 (labelsWith lab (lab t l).1 ls).2)
  | .group e => ((e.encWith t).1, .group (e.encWith t).2)
def SUn.encWith (t : E) : SUn String → E × RUn
  | .mk v p => ((v.encWith t).1, .mk (v.encWith t).2 p)
def SSeq.encWith (t : E) : SSeq String → E × RSeq
  | .one u => ((u.encWith t).1, .one (u.encWith t).2)
  | .more u s => ((s.encWith (u.encWith t).1).1, .more (u.encWith t).2 (s.encWith (u.encWith t).1).2)
def SAlt.encWith (t : E) : SAlt String → E × RAlt
  | .one s => ((s.encWith t).1, .one (s.encWith t).2)
  | .more s a => ((a.encWith (s.encWith t).1).1, .more (s.encWith t).2 (a.encWith (s.encWith t).1).2)
end

end Enc

/-! With a fixed number for each label. -/

theorem labelsWith_pure (f : String → Nat) : ∀ ls, labelsWith (fun (_ : Unit) x => ((), f x)) () ls = ((), ls.map f)
  | [] => rfl
  | l :: ls => by simp [labelsWith, labelsWith_pure f ls]

mutual
theorem SVal.encWith_pure (f : String → Nat) : ∀ v : SVal String, (v.encWith (fun (_ : Unit) x => ((), f x)) ()).2 = v.toR f
  | .dot => rfl
  | .set neg l ls => by simp [SVal.encWith, SVal.toR, labelsWith_pure]
  | .group e => by simp [SVal.encWith, SVal.toR, SAlt.encWith_pure f e]
theorem SUn.encWith_pure (f : String → Nat) : ∀ v : SUn String, (v.encWith (fun (_ : Unit) x => ((), f x)) ()).2 = v.toR f
  | .mk v p => by simp [SUn.encWith, SUn.toR, SVal.encWith_pure f v]
theorem SSeq.encWith_pure (f : String → Nat) : ∀ v : SSeq String, (v.encWith (fun (_ : Unit) x => ((), f x)) ()).2 = v.toR f
  | .one u => by simp [SSeq.encWith, SSeq.toR, SUn.encWith_pure f u]
  | .more u s => by simp [SSeq.encWith, SSeq.toR, SUn.encWith_pure f u, SSeq.encWith_pure f s]
theorem SAlt.encWith_pure (f : String → Nat) : ∀ v : SAlt String, (v.encWith (fun (_ : Unit) x => ((), f x)) ()).2 = v.toR f
  | .one u => by simp [SAlt.encWith, SAlt.toR, SSeq.encWith_pure f u]
  | .more u s => by simp [SAlt.encWith, SAlt.toR, SSeq.encWith_pure f u, SAlt.encWith_pure f s]
end

/-! With the labels of a PDA. -/

section Pda
variable {W : Type}

theorem labelsWith_pda (t : TPda String W) (ls : List String) : labelsWith (fun t x => t.insertLabel x) t ls = insertLabels t ls := by
  induction ls generalizing t with
  | nil => rfl
  | cons l ls ih => simp [labelsWith, insertLabels, ih]

mutual
theorem SVal.encWith_pda : ∀ (v : SVal String) (t : TPda String W), v.encWith (fun t x => t.insertLabel x) t = v.enc t
  | .dot, t => rfl
  | .set neg l ls, t => by simp [SVal.encWith, SVal.enc, labelsWith_pda]
  | .group e, t => by simp [SVal.encWith, SVal.enc, SAlt.encWith_pda e t]
theorem SUn.encWith_pda : ∀ (v : SUn String) (t : TPda String W), v.encWith (fun t x => t.insertLabel x) t = v.enc t
  | .mk v p, t => by simp [SUn.encWith, SUn.enc, SVal.encWith_pda v]
theorem SSeq.encWith_pda : ∀ (v : SSeq String) (t : TPda String W), v.encWith (fun t x => t.insertLabel x) t = v.enc t
  | .one u, t => by simp [SSeq.encWith, SSeq.enc, SUn.encWith_pda u]
  | .more u s, t => by simp [SSeq.encWith, SSeq.enc, SUn.encWith_pda u, SSeq.encWith_pda s]
theorem SAlt.encWith_pda : ∀ (v : SAlt String) (t : TPda String W), v.encWith (fun t x => t.insertLabel x) t = v.enc t
  | .one u, t => by simp [SAlt.encWith, SAlt.enc, SSeq.encWith_pda u]
  | .more u s, t => by simp [SAlt.encWith, SAlt.enc, SSeq.encWith_pda u, SAlt.encWith_pda s]
end

end Pda

/-! ## The builder -/

section Run
variable {E : Type} (addr : Nat → Nat) (lab : E → String → E × Nat)

theorem RState.acts_append (l k : List NAct) (s : RState E) :
    RState.acts addr lab (l ++ k) s = (RState.acts addr lab l s).bind (RState.acts addr lab k) := by
  unfold RState.acts
  rw [List.foldlM_append]
  rfl

theorem RState.acts_cons (a : NAct) (k : List NAct) (s : RState E) :
    RState.acts addr lab (a :: k) s = (s.act addr lab a).bind (RState.acts addr lab k) := by
  unfold RState.acts
  rw [List.foldlM_cons]
  rfl

theorem RState.acts_nil (s : RState E) : RState.acts addr lab [] s = some s := rfl

theorem RState.acts_labels (ls : List String) (s : RState E) : RState.acts addr lab (ls.map .label) s =
    some { s with env := (labelsWith lab s.env ls).1, set := s.set ++ (labelsWith lab s.env ls).2 } := by
  induction ls generalizing s with
  | nil => simp [RState.acts_nil, labelsWith]
  | cons l ls ih =>
    rw [List.map_cons, RState.acts_cons]
    simp only [RState.act, Option.bind_some]
    rw [ih]
    simp [labelsWith]

mutual
theorem SVal.run_log : ∀ (v : SVal String) (t : E) (b : Builder), RState.acts addr lab v.log { env := t, b := b } =
    ((v.encWith lab t).2.acts addr b).map fun b => { env := (v.encWith lab t).1, b := b }
  | .dot, t, b => by simp [SVal.log, RState.acts_cons, RState.acts_nil, RState.act, SVal.encWith, RVal.acts]
  | .set neg l ls, t, b => by
    have h1 : RState.acts addr lab (if neg then [.neg] else []) { env := t, b := b } = some { env := t, b := b, neg := neg } := by
      cases neg <;> simp [RState.acts_cons, RState.acts_nil, RState.act]
    rw [SVal.log, RState.acts_append, RState.acts_append, h1, Option.bind_some, RState.acts_labels, Option.bind_some,
      RState.acts_cons]
    simp [RState.acts_nil, RState.act, SVal.encWith, RVal.acts, labelsWith]
  | .group e, t, b => by
    rw [SVal.log, RState.acts_cons]
    simp only [RState.act, Option.bind_some]
    rw [RState.acts_append, SAlt.run_log0 e t (b.pushOp .bracket)]
    simp only [SVal.encWith, RVal.acts]
    cases RAlt.acts0 addr (e.encWith lab t).2 (b.pushOp .bracket) with
    | none => rfl
    | some b1 =>
      simp only [Option.map_some, Option.bind_some, RState.acts_cons, RState.act]
      cases Builder.reduceOr addr b1 with
      | none => rfl
      | some b2 =>
        simp only [Option.map_some, Option.bind_some]
        rw [RState.acts_cons]
        simp only [RState.act]
        cases Builder.close addr b2 <;> rfl
theorem SUn.run_log : ∀ (v : SUn String) (t : E) (b : Builder), RState.acts addr lab v.log { env := t, b := b } =
    ((v.encWith lab t).2.acts addr b).map fun b => { env := (v.encWith lab t).1, b := b }
  | .mk v p, t, b => by
    rw [SUn.log, RState.acts_append, RState.acts_append, SVal.run_log v t b]
    simp only [SUn.encWith, RUn.acts]
    cases RVal.acts addr (v.encWith lab t).2 b with
    | none => rfl
    | some b1 =>
      simp only [Option.map_some, Option.bind_some]
      cases p with
      | none => rfl
      | some p =>
        simp only [Option.map_some, Option.toList_some, RState.acts_cons, RState.act]
        cases Builder.post b1 (some p) with
        | none => rfl
        | some b2 => rfl
theorem SSeq.run_log0 : ∀ (v : SSeq String) (t : E) (b : Builder), RState.acts addr lab v.log0 { env := t, b := b } =
    ((v.encWith lab t).2.acts0 addr b).map fun b => { env := (v.encWith lab t).1, b := b }
  | .one u, t, b => SUn.run_log u t b
  | .more u s, t, b => by
    rw [SSeq.log0, RState.acts_append, SUn.run_log u t b]
    simp only [SSeq.encWith, RSeq.acts0]
    cases RUn.acts addr (u.encWith lab t).2 b with
    | none => rfl
    | some b1 =>
      simp only [Option.map_some, Option.bind_some]
      exact SSeq.run_log0 s _ b1
theorem SAlt.run_log0 : ∀ (v : SAlt String) (t : E) (b : Builder), RState.acts addr lab v.log0 { env := t, b := b } =
    ((v.encWith lab t).2.acts0 addr b).map fun b => { env := (v.encWith lab t).1, b := b }
  | .one q, t, b => by
    rw [SAlt.log0, RState.acts_append, SSeq.run_log0 q t b]
    simp only [SAlt.encWith, RAlt.acts0]
    cases RSeq.acts0 addr (q.encWith lab t).2 b with
    | none => rfl
    | some b1 =>
      simp only [Option.map_some, Option.bind_some, RState.acts_cons, RState.act]
      cases Builder.reduceConcat b1 <;> rfl
  | .more q a, t, b => by
    rw [SAlt.log0, RState.acts_append, SSeq.run_log0 q t b]
    simp only [SAlt.encWith, RAlt.acts0]
    cases RSeq.acts0 addr (q.encWith lab t).2 b with
    | none => rfl
    | some b1 =>
      simp only [Option.map_some, Option.bind_some, RState.acts_cons, RState.act]
      cases Builder.reduceConcat b1 with
      | none => rfl
      | some b2 =>
        simp only [Option.map_some, Option.bind_some]
        exact SAlt.run_log0 a _ _
end

theorem SAlt.run_log (e : SAlt String) (t : E) (b : Builder) : RState.acts addr lab e.log { env := t, b := b } =
    ((e.encWith lab t).2.acts addr b).map fun b => { env := (e.encWith lab t).1, b := b } := by
  rw [SAlt.log, RState.acts_append, SAlt.run_log0]
  unfold RAlt.acts
  cases RAlt.acts0 addr (e.encWith lab t).2 b with
  | none => rfl
  | some b1 =>
    simp only [Option.map_some, Option.bind_some, RState.acts_cons, RState.act]
    cases Builder.reduceOr addr b1 <;> rfl

/-- The beginning of the actions of an expression is defined. -/
theorem acts_prefix {addr : Nat → Nat} (ha : Function.Injective addr) {e : SAlt String} {l : List NAct} (h : l <+: e.log) (t : E) :
    (RState.acts addr lab l { env := t }).isSome := by
  obtain ⟨k, hk⟩ := h
  have h1 := SAlt.run_log addr lab e t {}
  rw [← hk, RState.acts_append] at h1
  cases hl : RState.acts addr lab l { env := t } with
  | some s => rfl
  | none =>
    rw [hl, Option.bind_none] at h1
    obtain ⟨n, b1, m, k', g1, g2, g3, g4⟩ := RAlt.acts_spec ha (e.encWith lab t).2 {} (by simp)
    have h5 : Builder.reduceOr addr b1 = some ⟨[m], [], k'⟩ :=
      Builder.reduceOrLoop_eq addr n _ b1 _ [] g2 (by simp) (by rw [g2]; simp) g3
    unfold RAlt.acts at h1
    rw [g1, Option.bind_some, h5] at h1
    cases h1

end Run

end Verif
