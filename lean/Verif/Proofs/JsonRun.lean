import Verif.Proofs.Json

/-! # Lemmas for reading a printed PDA: the events -/

namespace Verif.Json

variable {W : Type}

/-- The weight is read back as it was printed. -/
def RoundTrips (io : WeightIO W) (w : W) : Prop :=
  if io.isWeight then
    (∀ z ∈ io.nums w, z < 0 → io.isSigned = true) ∧
      if io.isVector then (io.nums w).foldlM io.put io.zero = some w
      else ∃ z, io.nums w = [z] ∧ io.put io.zero z = some w
  else w = io.zero

/-- The key and value for the operation of a rule. -/
def opKV (op : Op) (lab : String) : String × JVal :=
  match op with
  | .pop => ("pop", .str "")
  | .push => ("push", .str lab)
  | .swap => ("swap", .str lab)
  | .noop => ("swap", .str lab)

/-- The object of a rule. -/
def ruleObj (io : WeightIO W) (op : Op) (lab : String) (dst : JVal) (w : W) : JRule :=
  opKV op lab :: ("to", dst) ::
    (if io.isWeight then [("weight", if io.isVector then .nums (io.nums w) else .num ((io.nums w).headD 0))] else [])

/-- The operand that is printed. -/
def labOf {L : Type} [Inhabited L] (str : L → String) (t : TPda L W) (k : String) (r : Rule W) : String :=
  match r.op with
  | .pop => ""
  | .noop => k
  | .swap => str (t.symbol r.opLabel)
  | .push => str (t.symbol r.opLabel)

theorem jset_one {V : Type} (a b : String) (v w : V) (h : ltB b a = false) (hne : b ≠ a) :
    jset [(b, w)] a v = [(a, v), (b, w)] := by
  simp [jset, VMap.insertOrAssign, VMap.lb, lowerBound, h, hne]

theorem jset_last {V : Type} (m : VMap String V) (a : String) (v : V) (h : ∀ e ∈ m, ltB e.1 a = true) :
    jset m a v = m ++ [(a, v)] := by
  unfold jset
  induction m with
  | nil => rfl
  | cons e m ih =>
    rw [VMap.insertOrAssign_cons, if_pos (h e (by simp))]
    simp only [List.cons_append, List.cons.injEq, true_and]
    exact ih fun e' he' => h e' (by simp [he'])

theorem jrule_eq {L : Type} [Inhabited L] (io : WeightIO W) (str : L → String) (t : TPda L W) (dst : JVal) (k : String) (r : Rule W) :
    jrule io str t dst k r = ruleObj io r.op (labOf str t k r) dst r.weight := by
  have h1 : ∀ v : JVal, jset [("to", dst)] "pop" v = [("pop", v), ("to", dst)] := fun v => jset_one _ _ _ _ (by decide) (by decide)
  have h2 : ∀ v : JVal, jset [("to", dst)] "swap" v = [("swap", v), ("to", dst)] := fun v => jset_one _ _ _ _ (by decide) (by decide)
  have h3 : ∀ v : JVal, jset [("to", dst)] "push" v = [("push", v), ("to", dst)] := fun v => jset_one _ _ _ _ (by decide) (by decide)
  have h0 : jset ([] : VMap String JVal) "to" dst = [("to", dst)] := rfl
  unfold jrule ruleObj opKV labOf
  have hw : ∀ (v u : JVal) (a : String), ltB a "weight" = true → jset [(a, u), ("to", dst)] "weight" v = [(a, u), ("to", dst), ("weight", v)] := by
    intro v u a ha
    refine jset_last _ _ _ ?_
    intro e he
    simp only [List.mem_cons, List.not_mem_nil, or_false] at he
    rcases he with rfl | rfl
    · exact ha
    · show ltB "to" "weight" = true
      decide
  cases r.op <;> simp only [h0, h1, h2, h3] <;> split <;> first | rfl | exact hw _ _ _ (by decide)

namespace Rd

/-- The effect of reading the operation. -/
def readOp (p : NPda String String W) (wc : Bool) (op : Op) (lab : String) : NPda String String W × Op × Nat :=
  match op with
  | .pop => (p, .pop, epsilon)
  | .push => ((p.insertLabel lab).1, .push, (p.insertLabel lab).2)
  | _ => if wc && lab == "*" then (p, .noop, epsilon) else ((p.insertLabel lab).1, .swap, (p.insertLabel lab).2)

/-- The effect of reading the target. -/
def readDst (p : NPda String String W) (v : JVal) : NPda String String W × Nat :=
  match v with
  | .num z => (p, z.toNat)
  | .str n => p.insertState n
  | .nums _ => (p, 0)

/-- The effect of reading a rule. -/
def readRule [LinearOrder W] (p : NPda String String W) (src : Nat) (wc : Bool) (pre : List Nat) (op : Op) (lab : String) (dst : JVal)
    (w : W) : NPda String String W :=
  let a := readOp p wc op lab
  let b := readDst a.1 dst
  b.1.addRuleDetail src { «to» := b.2, op := a.2.1, weight := w, opLabel := a.2.2 } wc pre

end Rd

open Rd

/-- The target is a name or a number as the parser expects it. -/
def DstOK (names : Bool) (v : JVal) : Prop :=
  match v with
  | .num z => names = false ∧ 0 ≤ z
  | .str _ => names = true
  | .nums _ => False

/-- The context after an element: the index of an array is increased. -/
def bump : List JContext → List JContext
  | ⟨ty, .array i⟩ :: r => ⟨ty, .array (i + 1)⟩ :: r
  | st => st

variable [LinearOrder W]

theorem run_append (io : WeightIO W) (names : Bool) (as bs : List JEv) (s : Sax W) :
    Sax.run io names (as ++ bs) s = (Sax.run io names as s).bind (Sax.run io names bs) := by
  induction as generalizing s with
  | nil => rfl
  | cons a as ih =>
    simp only [List.cons_append, Sax.run]
    cases Sax.event io names s a with
    | none => rfl
    | some s' => exact ih s'

theorem run_cons (io : WeightIO W) (names : Bool) (e : JEv) (es : List JEv) {s s' : Sax W} (h : s.event io names e = some s') :
    Sax.run io names (e :: es) s = Sax.run io names es s' := by
  simp only [Sax.run, h, Option.bind_some]

theorem run_seq {io : WeightIO W} {names : Bool} {as : List JEv} (bs : List JEv) {s s' : Sax W} (h : Sax.run io names as s = some s') :
    Sax.run io names (as ++ bs) s = Sax.run io names bs s' := by
  rw [run_append, h]; rfl

/-- Inside the object of a rule. -/
def inRule (s : Sax W) (p : NPda String String W) (m : List Nat) (r : Rule W) (k : JKey) : Sax W :=
  { s with pda := p, rule := r, lastKey := k, stack := ⟨.rule, .object m⟩ :: s.stack }

theorem run_startRule (io : WeightIO W) (names : Bool) (s : Sax W)
    (h : s.top = some .ruleArray ∨ (s.top = some .state ∧ s.lastKey = .fromLabel)) :
    s.event io names .startObj = some (inRule s s.pda (Sax.ruleKeys io) s.rule s.lastKey) := by
  simp only [Sax.event, Sax.startObj]
  rcases h with h | ⟨h, h'⟩
  · rw [h]; rfl
  · rw [h]; simp only [h']; unfold Sax.push inRule; simp only [h']

theorem run_op (io : WeightIO W) (names : Bool) (s : Sax W) (p : NPda String String W) (m : List Nat) (r : Rule W) (lk : JKey)
    (op : Op) (lab : String) (hm : m.contains 2 = true) :
    Sax.run io names (.key (opKV op lab).1 :: JVal.events (opKV op lab).2) (inRule s p m r lk) =
      some (inRule s (readOp p s.wc op lab).1 (m.filter (· ≠ 2))
        { r with op := (readOp p s.wc op lab).2.1, opLabel := (readOp p s.wc op lab).2.2 } .none) := by
  have hk : ∀ k, Sax.handleKey (inRule s p m r lk) 2 k = some (inRule s p (m.filter (· ≠ 2)) r k) := by
    intro k; simp only [Sax.handleKey, inRule, hm, if_true]
  have ht : (inRule s p m r lk).top = some .rule := rfl
  cases op <;> simp only [opKV, JVal.events, Sax.run, Sax.event, Sax.key, ht, String.reduceEq, if_false, if_true, hk, Option.bind_some]
  case push => rfl
  case pop => rfl
  all_goals
    simp only [Sax.str, readOp, inRule, List.isEmpty_cons, Bool.false_eq_true, if_false]
    by_cases h2 : lab = "*"
    · subst h2
      rcases s with ⟨p0, src, pre, wc, rule, lk0, stk⟩
      cases wc <;> simp only [beq_self_eq_true, Bool.and_self, Bool.false_and, Bool.false_eq_true, if_true, if_false] <;> rfl
    · have h2' : ∀ b : Bool, (b && lab == "*") = false := by intro b; simp [h2]
      simp only [h2', Bool.false_eq_true, if_false]; rfl

theorem run_to (io : WeightIO W) (names : Bool) (s : Sax W) (p : NPda String String W) (m : List Nat) (r : Rule W) (lk : JKey)
    (dst : JVal) (hm : m.contains 1 = true) (hd : DstOK names dst) :
    Sax.run io names (.key "to" :: dst.events) (inRule s p m r lk) =
      some (inRule s (readDst p dst).1 (m.filter (· ≠ 1)) { r with «to» := (readDst p dst).2 } .none) := by
  have hk : ∀ k, Sax.handleKey (inRule s p m r lk) 1 k = some (inRule s p (m.filter (· ≠ 1)) r k) := by
    intro k; simp only [Sax.handleKey, inRule, hm, if_true]
  have ht : (inRule s p m r lk).top = some .rule := rfl
  have ht' : ∀ k, ((inRule s p (m.filter (· ≠ 1)) r k).top == some .weightArray) = false := fun _ => rfl
  cases dst with
  | num z =>
    obtain ⟨rfl, hz⟩ := hd
    simp only [JVal.events, numEv, if_pos hz, Sax.run, Sax.event, Sax.key, ht, if_true, hk, Option.bind_some]
    simp only [Sax.uns, ht', Bool.and_false, Bool.false_eq_true, if_false]
    rfl
  | str n =>
    have hn : names = true := hd
    subst hn
    simp only [JVal.events, Sax.run, Sax.event, Sax.key, ht, if_true, hk, Option.bind_some]
    rfl
  | nums l => exact hd.elim

/-- Inside the array of a weight. -/
theorem run_nums (io : WeightIO W) (names : Bool) (hw : io.isWeight = true) (hv : io.isVector = true) (l : List Int)
    (hl : ∀ z ∈ l, z < 0 → io.isSigned = true) (s : Sax W) (st : List JContext) (i : Nat) (hst : s.stack = ⟨.weightArray, .array i⟩ :: st)
    (w : W) (hput : l.foldlM io.put s.rule.weight = some w) :
    ∃ j, Sax.run io names (l.map numEv) s = some { s with rule := { s.rule with weight := w }, stack := ⟨.weightArray, .array j⟩ :: st } := by
  induction l generalizing s i with
  | nil =>
    simp only [List.foldlM_nil, Option.pure_def, Option.some.injEq] at hput
    refine ⟨i, ?_⟩
    simp only [List.map_nil, Sax.run]
    rw [← hst]
    subst hput
    rfl
  | cons z l ih =>
    rw [List.foldlM_cons] at hput
    cases hz : io.put s.rule.weight z with
    | none => rw [hz] at hput; cases hput
    | some w1 =>
      rw [hz] at hput
      have htop : s.top = some .weightArray := by unfold Sax.top; rw [hst]; rfl
      have hev : s.event io names (numEv z) = some { s with rule := { s.rule with weight := w1 }, stack := ⟨.weightArray, .array (i + 1)⟩ :: st } := by
        have hp : s.putWeight io z = some { s with rule := { s.rule with weight := w1 }, stack := ⟨.weightArray, .array (i + 1)⟩ :: st } := by
          simp only [Sax.putWeight, hz, Option.map_some, Sax.elementDone, hst]
        unfold numEv
        by_cases h0 : 0 ≤ z
        · rw [if_pos h0]
          simp only [Sax.event, Sax.uns, hw, hv, htop, Bool.and_true, beq_self_eq_true, if_true]
          rw [Int.toNat_of_nonneg h0, hp]
        · rw [if_neg h0]
          have hs := hl z (by simp) (by omega)
          simp only [Sax.event, Sax.int, hw, hv, hs, htop, Bool.and_true, beq_self_eq_true, if_true]
          rw [hp]
      rw [List.map_cons, run_cons _ _ _ _ hev]
      obtain ⟨j, hj⟩ := ih (fun z' hz' => hl z' (by simp [hz'])) { s with rule := { s.rule with weight := w1 }, stack := ⟨.weightArray, .array (i + 1)⟩ :: st } (i + 1) rfl hput
      exact ⟨j, hj⟩

theorem run_weight (io : WeightIO W) (names : Bool) (s : Sax W) (p : NPda String String W) (m : List Nat) (r : Rule W) (lk : JKey)
    (w : W) (hr : r.weight = io.zero) (hm : m.contains 3 = true) (hw : io.isWeight = true) (hrt : RoundTrips io w) :
    Sax.run io names (.key "weight" :: JVal.events (if io.isVector then .nums (io.nums w) else .num ((io.nums w).headD 0))) (inRule s p m r lk) =
      some (inRule s p (m.filter (· ≠ 3)) { r with weight := w } .none) := by
  have hk : ∀ k, Sax.handleKey (inRule s p m r lk) 3 k = some (inRule s p (m.filter (· ≠ 3)) r k) := by
    intro k; simp only [Sax.handleKey, inRule, hm, if_true]
  have ht : (inRule s p m r lk).top = some .rule := rfl
  have hkey : (inRule s p m r lk).event io names (.key "weight") = some (inRule s p (m.filter (· ≠ 3)) r .weight) := by
    simp only [Sax.event, Sax.key, ht, String.reduceEq, if_false, hw, beq_self_eq_true, Bool.and_self, if_true, hk]
  rw [run_cons _ _ _ _ hkey]
  unfold RoundTrips at hrt
  rw [if_pos hw] at hrt
  obtain ⟨hneg, hrt⟩ := hrt
  by_cases hv : io.isVector = true
  · rw [if_pos hv] at hrt ⊢
    simp only [JVal.events, List.cons_append]
    have hst : (inRule s p (m.filter (· ≠ 3)) r .weight).event io names .startArr =
        some ((inRule s p (m.filter (· ≠ 3)) r .weight).push .weightArray (.array 0)) := by
      simp only [Sax.event, Sax.startArr, inRule, List.isEmpty_cons, Bool.false_eq_true, if_false, hw, hv, Bool.and_self, if_true]
    rw [run_cons _ _ _ _ hst]
    obtain ⟨j, hj⟩ := run_nums io names hw hv (io.nums w) hneg ((inRule s p (m.filter (· ≠ 3)) r .weight).push .weightArray (.array 0)) _ 0 rfl w
      (by exact hr ▸ hrt)
    rw [run_seq _ hj]
    rfl
  · rw [if_neg hv] at hrt ⊢
    obtain ⟨z, hz, hput⟩ := hrt
    have hp : (inRule s p (m.filter (· ≠ 3)) r .weight).putWeight io z = some (inRule s p (m.filter (· ≠ 3)) { r with weight := w } .none) := by
      have : io.put (inRule s p (m.filter (· ≠ 3)) r .weight).rule.weight z = some w := by
        show io.put r.weight z = some w
        rw [hr]; exact hput
      simp only [Sax.putWeight, this, Option.map_some]
      rfl
    have hv' : io.isVector = false := by simpa using hv
    have hlk : (inRule s p (m.filter (· ≠ 3)) r .weight).lastKey = .weight := rfl
    simp only [hz, List.headD_cons, JVal.events]
    unfold numEv
    by_cases h0 : 0 ≤ z
    · rw [if_pos h0]
      simp only [Sax.run, Sax.event, Sax.uns, hw, hv', hlk, Bool.and_false, Bool.false_and, Bool.false_eq_true, if_false, Bool.not_false, Bool.and_self, if_true]
      rw [Int.toNat_of_nonneg h0, hp]; rfl
    · rw [if_neg h0]
      have hs := hneg z (by rw [hz]; simp) (by omega)
      simp only [Sax.run, Sax.event, Sax.int, hw, hv', hs, hlk, Bool.and_false, Bool.false_and, Bool.false_eq_true, if_false, Bool.not_false, Bool.and_self, if_true]
      rw [hp]; rfl

/-- Reading the object of a rule. -/
theorem run_rule (io : WeightIO W) (names : Bool) (s : Sax W) (op : Op) (lab : String) (dst : JVal) (w : W)
    (h : s.top = some .ruleArray ∨ (s.top = some .state ∧ s.lastKey = .fromLabel)) (hr : s.rule = Sax.rule0 io)
    (hd : DstOK names dst) (hrt : RoundTrips io w) :
    Sax.run io names (JRule.events (ruleObj io op lab dst w)) s =
      some { s with pda := readRule s.pda s.src s.wc s.pre op lab dst w, lastKey := .none, stack := bump s.stack } := by
  have hend : ∀ (p : NPda String String W) (r : Rule W), (inRule s p [] r .none).event io names .endObj =
      some { s with pda := p.addRuleDetail s.src r s.wc s.pre, lastKey := .none, stack := bump s.stack } := by
    intro p r
    simp only [Sax.event, Sax.endObj, inRule, Sax.elementDone]
    rcases hs : s.stack with _ | ⟨⟨ty, b⟩, st⟩
    · simp only [bump, hr]
    · cases b <;> simp only [bump, hr]
  unfold JRule.events objEvents
  rw [List.cons_append, run_cons _ _ _ _ (run_startRule io names s h)]
  unfold ruleObj
  by_cases hw : io.isWeight = true
  · simp only [if_pos hw, List.flatMap_cons, List.flatMap_nil, List.append_nil, List.append_assoc]
    rw [run_seq _ (run_op io names s s.pda (Sax.ruleKeys io) s.rule s.lastKey op lab (by simp [Sax.ruleKeys, hw]))]
    rw [run_seq _ (run_to io names s _ _ _ _ dst (by simp [Sax.ruleKeys, hw]) hd)]
    rw [run_seq _ (run_weight io names s _ _ _ _ w (by rw [hr]; rfl) (by simp [Sax.ruleKeys, hw]) hw hrt)]
    have hm : ((((Sax.ruleKeys io).filter (· ≠ 2)).filter (· ≠ 1)).filter (· ≠ 3)) = [] := by simp [Sax.ruleKeys, hw]
    rw [hm, run_cons _ _ _ _ (hend _ _)]
    rfl
  · simp only [if_neg hw, List.flatMap_cons, List.flatMap_nil, List.append_nil, List.append_assoc]
    rw [run_seq _ (run_op io names s s.pda (Sax.ruleKeys io) s.rule s.lastKey op lab (by simp [Sax.ruleKeys, hw]))]
    rw [run_seq _ (run_to io names s _ _ _ _ dst (by simp [Sax.ruleKeys, hw]) hd)]
    have hm : (((Sax.ruleKeys io).filter (· ≠ 2)).filter (· ≠ 1)) = [] := by simp [Sax.ruleKeys, hw]
    unfold RoundTrips at hrt
    rw [if_neg hw] at hrt
    rw [hm, run_cons _ _ _ _ (hend _ _)]
    subst hrt
    rw [hr]
    rfl

end Verif.Json
