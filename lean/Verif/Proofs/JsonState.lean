import Verif.Proofs.JsonRun
import Mathlib.Data.List.Induction

/-! # Lemmas for reading a printed PDA: states and documents -/

namespace Verif.Json

open Rd

variable {L W : Type}

/-- The operation that is read. -/
def normOp (k : String) (op : Op) (lab : String) : Op :=
  match op with
  | .pop => .pop
  | .push => .push
  | _ => if k = "*" ∧ lab = "*" then .noop else .swap

/-- Names and labels are only added. -/
def Ext (p p' : NPda String String W) : Prop := (∃ more, p'.names = p.names ++ more) ∧ ∃ more, p'.labels = p.labels ++ more

theorem Ext.refl (p : NPda String String W) : Ext p p := ⟨⟨[], by simp⟩, ⟨[], by simp⟩⟩

theorem Ext.trans {p q r : NPda String String W} (h : Ext p q) (h' : Ext q r) : Ext p r := by
  obtain ⟨⟨a, ha⟩, ⟨b, hb⟩⟩ := h
  obtain ⟨⟨c, hc⟩, ⟨d, hd⟩⟩ := h'
  exact ⟨⟨a ++ c, by rw [hc, ha, List.append_assoc]⟩, ⟨b ++ d, by rw [hd, hb, List.append_assoc]⟩⟩

theorem getElem?_mono {l l' : List String} (h : ∃ more, l' = l ++ more) {i : Nat} {a : String} (hi : l[i]? = some a) : l'[i]? = some a := by
  obtain ⟨more, rfl⟩ := h
  rw [List.getElem?_append_left (List.getElem?_eq_some_iff.1 hi).1]; exact hi

theorem Ref.mono {l l' : List String} (h : ∃ more, l' = l ++ more) {v : JVal} {n : Nat} (hi : Ref l v n) : Ref l' v n := by
  cases v with
  | num z => exact hi
  | str s => exact getElem?_mono h hi
  | nums l => exact hi

theorem Operand.mono {l l' : List String} (h : ∃ more, l' = l ++ more) {op : Op} {lab : String} {n : Nat} (hi : Operand l op lab n) :
    Operand l' op lab n := by
  unfold Operand at *
  split at hi
  · rename_i ho; rw [if_pos ho]; exact getElem?_mono h hi
  · rename_i ho; rw [if_neg ho]; exact hi

/-- How a key in the object of a state was read. -/
def KeyRead (labels : List String) (k : String) (wc : Bool) (pre : List Nat) : Prop :=
  (k = "*" ∧ wc = true ∧ pre = []) ∨ (k ≠ "*" ∧ wc = false ∧ ∃ g, pre = [g] ∧ labels[g]? = some k)

theorem KeyRead.mono {l l' : List String} (h : ∃ more, l' = l ++ more) {k : String} {wc : Bool} {pre : List Nat} (hk : KeyRead l k wc pre) :
    KeyRead l' k wc pre := by
  rcases hk with hk | ⟨h1, h2, g, h3, h4⟩
  · exact .inl hk
  · exact .inr ⟨h1, h2, g, h3, getElem?_mono h h4⟩

theorem KeyRead.wc {l : List String} {k : String} {wc : Bool} {pre : List Nat} (hk : KeyRead l k wc pre) : wc = true ↔ k = "*" := by
  rcases hk with ⟨h1, h2, _⟩ | ⟨h1, h2, _⟩ <;> simp [h1, h2]

variable [LinearOrder W] {N : String → Prop}

theorem JInv.congr {p : NPda String String W} {D D' : DRule W → Prop} {Lb Lb' : String → Prop} (h : JInv N p D Lb)
    (hD : ∀ d, D d ↔ D' d) (hL : ∀ l, Lb l ↔ Lb' l) : JInv N p D' Lb' := by
  obtain rfl : D = D' := funext fun d => propext (hD d)
  obtain rfl : Lb = Lb' := funext fun l => propext (hL l)
  exact h

theorem readOp_inv {p : NPda String String W} {D : DRule W → Prop} {Lb : String → Prop} (h : JInv N p D Lb) {k : String} {wc : Bool}
    {pre : List Nat} (hkey : KeyRead p.labels k wc pre) (op : Op) (lab : String) :
    JInv N (readOp p wc op lab).1 D (fun l => Lb l ∨ ((normOp k op lab = .push ∨ normOp k op lab = .swap) ∧ l = lab)) ∧
      Ext p (readOp p wc op lab).1 ∧ (readOp p wc op lab).2.1 = normOp k op lab ∧
      Operand (readOp p wc op lab).1.labels (normOp k op lab) lab (readOp p wc op lab).2.2 := by
  have hsame : normOp k op lab ≠ .push ∧ normOp k op lab ≠ .swap →
      JInv N p D (fun l => Lb l ∨ ((normOp k op lab = .push ∨ normOp k op lab = .swap) ∧ l = lab)) := by
    rintro ⟨h1, h2⟩
    exact h.congr (fun _ => Iff.rfl) (fun l => by simp [h1, h2])
  obtain ⟨i1, i2, i3, i4, i5⟩ := h.insertLabel lab
  have hnew : normOp k op lab = .push ∨ normOp k op lab = .swap →
      JInv N (p.insertLabel lab).1 D (fun l => Lb l ∨ ((normOp k op lab = .push ∨ normOp k op lab = .swap) ∧ l = lab)) := by
    intro h1
    exact i1.congr (fun _ => Iff.rfl) (fun l => by simp [h1])
  have hext : Ext p (p.insertLabel lab).1 := ⟨⟨[], by rw [i3]; simp⟩, i5⟩
  have hswap : ∀ op, (op = .swap ∨ op = .noop) → readOp p wc op lab =
      if wc && lab == "*" then (p, .noop, epsilon) else ((p.insertLabel lab).1, .swap, (p.insertLabel lab).2) := by
    rintro op (rfl | rfl) <;> rfl
  cases op with
  | pop => exact ⟨hsame (by simp [normOp]), Ext.refl p, rfl, by simp [normOp, Operand, readOp]⟩
  | push => exact ⟨hnew (by simp [normOp]), hext, rfl, by simpa [normOp, Operand, readOp] using i2⟩
  | swap =>
    rw [hswap _ (.inl rfl)]
    by_cases hk : k = "*" ∧ lab = "*"
    · have hwc := hkey.wc.2 hk.1
      simp only [hwc, hk.2, beq_self_eq_true, Bool.and_self, if_true]
      have hn : normOp k .swap lab = .noop := by simp [normOp, hk]
      rw [hk.2] at hn hsame
      refine ⟨hsame (by simp [hn]), Ext.refl p, hn.symm, by simp [hn, Operand]⟩
    · have hb : (wc && lab == "*") = false := by
        cases hw : wc with
        | false => rfl
        | true =>
          have := hkey.wc.1 hw
          simp only [Bool.true_and, beq_eq_false_iff_ne]
          exact fun h' => hk ⟨this, h'⟩
      simp only [hb, Bool.false_eq_true, if_false]
      have hn : normOp k .swap lab = .swap := by simp [normOp, hk]
      refine ⟨hnew (by simp [hn]), hext, hn.symm, by simpa [hn, Operand] using i2⟩
  | noop =>
    rw [hswap _ (.inr rfl)]
    by_cases hk : k = "*" ∧ lab = "*"
    · have hwc := hkey.wc.2 hk.1
      simp only [hwc, hk.2, beq_self_eq_true, Bool.and_self, if_true]
      have hn : normOp k .noop lab = .noop := by simp [normOp, hk]
      rw [hk.2] at hn hsame
      refine ⟨hsame (by simp [hn]), Ext.refl p, hn.symm, by simp [hn, Operand]⟩
    · have hb : (wc && lab == "*") = false := by
        cases hw : wc with
        | false => rfl
        | true =>
          have := hkey.wc.1 hw
          simp only [Bool.true_and, beq_eq_false_iff_ne]
          exact fun h' => hk ⟨this, h'⟩
      simp only [hb, Bool.false_eq_true, if_false]
      have hn : normOp k .noop lab = .swap := by simp [normOp, hk]
      refine ⟨hnew (by simp [hn]), hext, hn.symm, by simpa [hn, Operand] using i2⟩

theorem readDst_inv {p : NPda String String W} {D : DRule W → Prop} {Lb : String → Prop} (h : JInv N p D Lb) {names : Bool} {v : JVal}
    (hd : DstOK names v) (hN : ∀ s, v = .str s → N s) : JInv N (readDst p v).1 D Lb ∧ Ext p (readDst p v).1 ∧ Ref (readDst p v).1.names v (readDst p v).2 := by
  cases v with
  | num z =>
    refine ⟨h, Ext.refl p, ?_⟩
    have := hd.2
    show z = (z.toNat : Int)
    omega
  | str n =>
    obtain ⟨i1, i2, i3, _, i5⟩ := h.insertState n (hN n rfl)
    exact ⟨i1, ⟨i5, ⟨[], by show (p.insertState n).1.labels = _; rw [i3]; simp⟩⟩, i2⟩
  | nums l => exact hd.elim

/-- Reading a rule. -/
theorem readRule_inv {p : NPda String String W} {D : DRule W → Prop} {Lb : String → Prop} (h : JInv N p D Lb) {v : JVal} {src : Nat}
    (hsrc : Ref p.names v src) {k : String} {wc : Bool} {pre : List Nat} (hkey : KeyRead p.labels k wc pre) (op : Op) (lab : String)
    {names : Bool} {dst : JVal} (hd : DstOK names dst) (hN : ∀ s, dst = .str s → N s) (w : W) :
    JInv N (readRule p src wc pre op lab dst w) (fun d => D d ∨ d = ⟨v, k, normOp k op lab, lab, dst, w⟩)
      (fun l => Lb l ∨ ((normOp k op lab = .push ∨ normOp k op lab = .swap) ∧ l = lab)) ∧
      Ext p (readRule p src wc pre op lab dst w) := by
  obtain ⟨a1, a2, a3, a4⟩ := readOp_inv h hkey op lab
  obtain ⟨b1, b2, b3⟩ := readDst_inv a1 hd hN
  have hext := a2.trans b2
  refine ⟨?_, hext⟩
  exact b1.addRule ⟨v, k, normOp k op lab, lab, dst, w⟩ (Ref.mono hext.1 hsrc) b3 a3 rfl (Operand.mono b2.2 a4) (KeyRead.mono hext.2 hkey)

/-! ## Entries of a state -/

section
variable [Inhabited L] (io : WeightIO W) (names : Bool) (str : L → String) (dst : Nat → JVal) (t : TPda L W)

/-- The rule `r` printed under the key `k` of the state `v`. -/
def dOf (v : JVal) (k : String) (r : Rule W) : DRule W :=
  ⟨v, k, normOp k r.op (labOf str t k r), labOf str t k r, dst r.to, r.weight⟩

/-- The label `l` occurs where the rule `r` is printed under the key `k`. -/
def lOf (k : String) (r : Rule W) (l : String) : Prop :=
  (k ≠ "*" ∧ l = k) ∨ ((normOp k r.op (labOf str t k r) = .push ∨ normOp k r.op (labOf str t k r) = .swap) ∧ l = labOf str t k r)

/-- The rules are as the parser expects them. -/
def RuleOK (N : String → Prop) (r : Rule W) : Prop := DstOK names (dst r.to) ∧ RoundTrips io r.weight ∧ ∀ s, dst r.to = .str s → N s

/-- The JSON object of a rule under the key `k`. -/
abbrev jr (k : String) (r : Rule W) : JRule := jrule io str t (dst r.to) k r

variable {io names str dst t}

theorem run_jr {s : Sax W} (hr : s.rule = Sax.rule0 io) (h : s.top = some .ruleArray ∨ (s.top = some .state ∧ s.lastKey = .fromLabel))
    {D : DRule W → Prop} {Lb : String → Prop} (hi : JInv N s.pda D Lb) {v : JVal} (hsrc : Ref s.pda.names v s.src) {k : String}
    (hkey : KeyRead s.pda.labels k s.wc s.pre) {r : Rule W} (hok : RuleOK io names dst N r) :
    ∃ p', Sax.run io names (JRule.events (jr io str dst t k r)) s = some { s with pda := p', lastKey := .none, stack := bump s.stack } ∧
      Ext s.pda p' ∧ JInv N p' (fun d => D d ∨ d = dOf str dst t v k r)
        (fun l => Lb l ∨ ((normOp k r.op (labOf str t k r) = .push ∨ normOp k r.op (labOf str t k r) = .swap) ∧ l = labOf str t k r)) := by
  unfold jr
  rw [jrule_eq]
  refine ⟨_, run_rule io names s _ _ _ _ h hr hok.1 hok.2.1, ?_⟩
  obtain ⟨h1, h2⟩ := readRule_inv hi hsrc hkey r.op (labOf str t k r) hok.1 hok.2.2 r.weight
  exact ⟨h2, h1⟩

theorem run_jrs (rs : List (Rule W)) (hok : ∀ r ∈ rs, RuleOK io names dst N r) {k : String} {v : JVal} {st : List JContext}
    {s : Sax W} {j : Nat} (hst : s.stack = ⟨.ruleArray, .array j⟩ :: st) (hr : s.rule = Sax.rule0 io)
    {D : DRule W → Prop} {Lb : String → Prop} (hi : JInv N s.pda D Lb) (hsrc : Ref s.pda.names v s.src)
    (hkey : KeyRead s.pda.labels k s.wc s.pre) :
    ∃ p' lk j', Sax.run io names ((rs.map (jr io str dst t k)).flatMap JRule.events) s =
        some { s with pda := p', lastKey := lk, stack := ⟨.ruleArray, .array j'⟩ :: st } ∧
      Ext s.pda p' ∧ JInv N p' (fun d => D d ∨ ∃ r ∈ rs, d = dOf str dst t v k r)
        (fun l => Lb l ∨ ∃ r ∈ rs, (normOp k r.op (labOf str t k r) = .push ∨ normOp k r.op (labOf str t k r) = .swap) ∧ l = labOf str t k r) := by
  induction rs generalizing s j D Lb with
  | nil =>
    refine ⟨s.pda, s.lastKey, j, ?_, Ext.refl _, hi.congr (by simp) (by simp)⟩
    rw [← hst]; rfl
  | cons r rs ih =>
    have htop : s.top = some .ruleArray := by unfold Sax.top; rw [hst]; rfl
    obtain ⟨p1, h1, h2, h3⟩ := run_jr (str := str) (t := t) hr (.inl htop) hi hsrc hkey (hok r (by simp))
    obtain ⟨p2, lk, j', h4, h5, h6⟩ := ih (fun r' hr' => hok r' (by simp [hr']))
      (s := { s with pda := p1, lastKey := .none, stack := bump s.stack }) (j := j + 1) (by simp only [hst, bump]) hr h3
      (Ref.mono h2.1 hsrc) (KeyRead.mono h2.2 hkey)
    refine ⟨p2, lk, j', ?_, h2.trans h5, h6.congr ?_ ?_⟩
    · rw [List.map_cons, List.flatMap_cons, run_seq _ h1, h4]
    · intro d; simp only [List.mem_cons, exists_eq_or_imp, or_assoc]
    · intro l; simp only [List.mem_cons, exists_eq_or_imp, or_assoc]

/-- The entry for the given rules. -/
def mkEntry : List JRule → JEntry
  | [r] => .one r
  | rs => .many rs

theorem run_entry {rs : List (Rule W)} (hne : rs ≠ []) (hok : ∀ r ∈ rs, RuleOK io names dst N r) {k : String} {v : JVal}
    {st : List JContext} {s : Sax W} {m : List Nat} (hst : s.stack = ⟨.state, .object m⟩ :: st) (hr : s.rule = Sax.rule0 io)
    {D : DRule W → Prop} {Lb : String → Prop} (hi : JInv N s.pda D Lb) (hsrc : Ref s.pda.names v s.src) :
    ∃ p' pre wc, Sax.run io names (.key k :: (mkEntry (rs.map (jr io str dst t k))).events) s =
        some { s with pda := p', lastKey := .none, pre := pre, wc := wc } ∧
      Ext s.pda p' ∧ JInv N p' (fun d => D d ∨ ∃ r ∈ rs, d = dOf str dst t v k r)
        (fun l => Lb l ∨ ∃ r ∈ rs, lOf str t k r l) := by
  have htop : s.top = some .state := by unfold Sax.top; rw [hst]; rfl
  have hkey : ∃ p1 pre wc, s.event io names (.key k) = some { s with pda := p1, lastKey := .fromLabel, pre := pre, wc := wc } ∧
      Ext s.pda p1 ∧ JInv N p1 D (fun l => Lb l ∨ (k ≠ "*" ∧ l = k)) ∧ KeyRead p1.labels k wc pre := by
    by_cases hk : k = "*"
    · refine ⟨s.pda, [], true, ?_, Ext.refl _, hi.congr (fun _ => Iff.rfl) (by simp [hk]), .inl ⟨hk, rfl, rfl⟩⟩
      simp only [Sax.event, Sax.key, htop, hk, if_true]
    · obtain ⟨i1, i2, i3, _, i5⟩ := hi.insertLabel k
      refine ⟨(s.pda.insertLabel k).1, [(s.pda.insertLabel k).2], false, ?_, ⟨⟨[], by rw [i3]; simp⟩, i5⟩,
        i1.congr (fun _ => Iff.rfl) (by simp [hk]), .inr ⟨hk, rfl, _, rfl, i2⟩⟩
      simp only [Sax.event, Sax.key, htop, hk, if_false, Sax.insertLabel]
  obtain ⟨p1, pre, wc, he, hx1, hi1, hk1⟩ := hkey
  have hs1 : Ref p1.names v s.src := Ref.mono hx1.1 hsrc
  have hL : ∀ l, ((Lb l ∨ (k ≠ "*" ∧ l = k)) ∨ ∃ r ∈ rs, (normOp k r.op (labOf str t k r) = .push ∨ normOp k r.op (labOf str t k r) = .swap) ∧ l = labOf str t k r)
      ↔ (Lb l ∨ ∃ r ∈ rs, lOf str t k r l) := by
    intro l
    obtain ⟨r0, hr0⟩ := List.exists_mem_of_ne_nil rs hne
    unfold lOf
    constructor
    · rintro ((h | h) | ⟨r, hr, h⟩)
      · exact .inl h
      · exact .inr ⟨r0, hr0, .inl h⟩
      · exact .inr ⟨r, hr, .inr h⟩
    · rintro (h | ⟨r, hr, h | h⟩)
      · exact .inl (.inl h)
      · exact .inl (.inr h)
      · exact .inr ⟨r, hr, h⟩
  rw [run_cons _ _ _ _ he]
  match rs, hne with
  | [r], _ =>
    obtain ⟨p2, h1, h2, h3⟩ := run_jr (str := str) (t := t) (s := { s with pda := p1, lastKey := .fromLabel, pre := pre, wc := wc }) hr
      (.inr ⟨htop, rfl⟩) hi1 hs1 hk1 (hok r (by simp))
    refine ⟨p2, pre, wc, ?_, hx1.trans h2, h3.congr (by simp) (fun l => ?_)⟩
    · show Sax.run io names (JRule.events (jr io str dst t k r)) _ = _
      rw [h1]
      simp only [hst, bump]
    · rw [← hL l]; simp
  | r1 :: r2 :: rs, _ =>
    obtain ⟨p2, lk, j, h1, h2, h3⟩ := run_jrs (str := str) (t := t) (r1 :: r2 :: rs) hok
      (s := { s with pda := p1, lastKey := .fromLabel, pre := pre, wc := wc, stack := ⟨.ruleArray, .array 0⟩ :: s.stack }) rfl hr hi1 hs1 hk1
    refine ⟨p2, pre, wc, ?_, hx1.trans h2, h3.congr (fun _ => Iff.rfl) hL⟩
    show Sax.run io names ((.startArr :: ((r1 :: r2 :: rs).map (jr io str dst t k)).flatMap JRule.events) ++ [.endArr]) _ = _
    rw [List.cons_append]
    have hsa : Sax.event io names { s with pda := p1, lastKey := .fromLabel, pre := pre, wc := wc } .startArr =
        some { s with pda := p1, lastKey := .fromLabel, pre := pre, wc := wc, stack := ⟨.ruleArray, .array 0⟩ :: s.stack } := by
      simp only [Sax.event, Sax.startArr, hst, List.isEmpty_cons, Bool.false_eq_true, if_false, Sax.push]
    rw [run_cons _ _ _ _ hsa, run_seq _ h1]
    simp only [Sax.run, Sax.event, Sax.endArr, Sax.elementDone, hst, Option.bind_some]

/-- The entries of a state. -/
theorem run_entries (m : VMap String JEntry) (rsOf : String → List (Rule W))
    (hm : ∀ e ∈ m, e.2 = mkEntry ((rsOf e.1).map (jr io str dst t e.1)) ∧ rsOf e.1 ≠ [] ∧ ∀ r ∈ rsOf e.1, RuleOK io names dst N r)
    {v : JVal} {st : List JContext} {s : Sax W} {mm : List Nat} (hst : s.stack = ⟨.state, .object mm⟩ :: st) (hr : s.rule = Sax.rule0 io)
    {D : DRule W → Prop} {Lb : String → Prop} (hi : JInv N s.pda D Lb) (hsrc : Ref s.pda.names v s.src) :
    ∃ p' pre wc lk, Sax.run io names (m.flatMap (fun e => .key e.1 :: JEntry.events e.2)) s =
        some { s with pda := p', lastKey := lk, pre := pre, wc := wc } ∧
      Ext s.pda p' ∧ JInv N p' (fun d => D d ∨ ∃ e ∈ m, ∃ r ∈ rsOf e.1, d = dOf str dst t v e.1 r)
        (fun l => Lb l ∨ ∃ e ∈ m, ∃ r ∈ rsOf e.1, lOf str t e.1 r l) := by
  induction m generalizing s D Lb with
  | nil => exact ⟨s.pda, s.pre, s.wc, s.lastKey, rfl, Ext.refl _, hi.congr (by simp) (by simp)⟩
  | cons e m ih =>
    obtain ⟨h1, h2, h3⟩ := hm e (by simp)
    obtain ⟨p1, pre, wc, h4, h5, h6⟩ := run_entry (str := str) (t := t) h2 h3 (k := e.1) hst hr hi hsrc
    obtain ⟨p2, pre2, wc2, lk, h7, h8, h9⟩ := ih (fun e' he' => hm e' (by simp [he']))
      (s := { s with pda := p1, lastKey := .none, pre := pre, wc := wc }) hst hr h6 (Ref.mono h5.1 hsrc)
    refine ⟨p2, pre2, wc2, lk, ?_, h5.trans h8, h9.congr ?_ ?_⟩
    · rw [List.flatMap_cons, h1, run_seq _ h4, h7]
    · intro d; simp only [List.mem_cons, exists_eq_or_imp, or_assoc]
    · intro l; simp only [List.mem_cons, exists_eq_or_imp, or_assoc]

/-! ## The object of a state -/

theorem ltB_total : StrictTotal (ltB : String → String → Bool) where
  irrefl a := by simp [ltB]
  trans := by
    intro a b c h1 h2
    simp only [ltB, decide_eq_true_eq] at *
    exact lt_trans h1 h2
  tri := by
    intro a b
    simp only [ltB, decide_eq_true_eq]
    rcases lt_trichotomy a b with h | h | h
    · exact .inl h
    · exact .inr (.inl h)
    · exact .inr (.inr h)

variable (io str dst t) in
/-- The object of a state, with the rules and the keys under which they are printed in one list. -/
def jstateQ (Q : List (Rule W × String)) : JState := Q.foldl (fun m q => jadd m q.2 (jr io str dst t q.2 q.1)) []

/-- The rules printed under the key `k`. -/
def rsQ (Q : List (Rule W × String)) (k : String) : List (Rule W) := (Q.filter fun q => q.2 = k).map Prod.fst

variable (str t) in
/-- The rules of a state with the keys under which they are printed. -/
def pairs (s : PState W) : List (Rule W × String) := s.rules.flatMap fun e => (jlabels str t e.2).map fun k => (e.1, k)

theorem jstate_eq (s : PState W) : jstate io str dst t s = jstateQ io str dst t (pairs str t s) := by
  unfold jstate jstateQ pairs
  rw [List.foldl_flatMap]
  simp only [List.foldl_map]

omit [Inhabited L] in
theorem mem_rsQ (Q : List (Rule W × String)) (k : String) (r : Rule W) : r ∈ rsQ Q k ↔ (r, k) ∈ Q := by
  unfold rsQ
  simp only [List.mem_map, List.mem_filter, decide_eq_true_eq, Prod.exists, exists_and_right, exists_eq_right]

theorem mem_jset {V : Type} {m : VMap String V} (hs : m.Sorted ltB) (k : String) (v : V) (e : String × V) :
    e ∈ jset m k v ↔ (e.1 ≠ k ∧ e ∈ m) ∨ e = (k, v) := by
  unfold jset; exact VMap.mem_insertOrAssign ltB_total hs k v e

theorem jset_sorted {V : Type} {m : VMap String V} (hs : m.Sorted ltB) (k : String) (v : V) : (jset m k v).Sorted ltB := by
  unfold jset; exact VMap.insertOrAssign_sorted ltB_total hs k v

theorem jstateQ_spec (Q : List (Rule W × String)) : (jstateQ io str dst t Q).Sorted ltB ∧
    ∀ e, e ∈ jstateQ io str dst t Q ↔ (∃ q ∈ Q, q.2 = e.1) ∧ e.2 = mkEntry ((rsQ Q e.1).map (jr io str dst t e.1)) := by
  induction Q using List.reverseRecOn with
  | nil => exact ⟨List.Pairwise.nil, by simp [jstateQ]⟩
  | append_singleton Q q ih =>
    obtain ⟨hs, hm⟩ := ih
    obtain ⟨r, k⟩ := q
    have hstep : jstateQ io str dst t (Q ++ [(r, k)]) = jadd (jstateQ io str dst t Q) k (jr io str dst t k r) := by
      unfold jstateQ; rw [List.foldl_append]; rfl
    have hrs : ∀ k', rsQ (Q ++ [(r, k)]) k' = rsQ Q k' ++ if k = k' then [r] else [] := by
      intro k'; unfold rsQ; rw [List.filter_append, List.map_append]
      by_cases hk : k = k' <;> simp [hk]
    have hset : ∀ E : JEntry, (∀ e : String × JEntry, e.1 = k → e.2 = mkEntry ((rsQ (Q ++ [(r, k)]) e.1).map (jr io str dst t e.1)) ↔ e.1 = k → e.2 = E) →
        (jset (jstateQ io str dst t Q) k E).Sorted ltB ∧ ∀ e, e ∈ jset (jstateQ io str dst t Q) k E ↔
          (∃ q ∈ Q ++ [(r, k)], q.2 = e.1) ∧ e.2 = mkEntry ((rsQ (Q ++ [(r, k)]) e.1).map (jr io str dst t e.1)) := by
      intro E hE
      refine ⟨jset_sorted hs k E, fun e => ?_⟩
      rw [mem_jset hs]
      by_cases hk : e.1 = k
      · constructor
        · rintro (⟨h1, _⟩ | rfl)
          · exact absurd hk h1
          · exact ⟨⟨(r, k), by simp, rfl⟩, (hE _).2 (fun _ => rfl) rfl⟩
        · rintro ⟨_, h2⟩
          right
          have := (hE e).1 (fun _ => h2) hk
          cases e; simp_all
      · have hne : ∀ v, e ≠ (k, v) := by rintro v rfl; exact hk rfl
        have hex : (∃ q ∈ Q ++ [(r, k)], q.2 = e.1) ↔ ∃ q ∈ Q, q.2 = e.1 := by
          simp only [List.mem_append, List.mem_singleton, or_and_right, exists_or, exists_eq_left]
          exact ⟨fun h => h.elim id fun h => absurd h.symm hk, .inl⟩
        rw [hex, hrs, if_neg (fun h => hk h.symm), List.append_nil, hm]
        simp [hk, hne]
    rw [hstep]
    unfold jadd
    cases hf : VMap.find ltB (jstateQ io str dst t Q) k with
    | none =>
      refine hset _ fun e => ?_
      refine forall_congr' fun hk => ?_
      rw [hk, hrs, if_pos rfl]
      have hnil : rsQ Q k = [] := by
        rw [List.eq_nil_iff_forall_not_mem]
        intro r' hr'
        have := (hm (k, mkEntry ((rsQ Q k).map (jr io str dst t k)))).2 ⟨⟨(r', k), (mem_rsQ Q k r').1 hr', rfl⟩, rfl⟩
        rw [(VMap.find_eq ltB_total hs k _).2 this] at hf
        cases hf
      rw [hnil]
      rfl
    | some E0 =>
      have hmem := (VMap.find_eq ltB_total hs k E0).1 hf
      obtain ⟨⟨q, hq, hqk⟩, hE0⟩ := (hm _).1 hmem
      simp only at hqk hE0
      have hne : rsQ Q k ≠ [] := by
        intro h0
        have := (mem_rsQ Q k q.1).2 (by rw [← hqk]; exact hq)
        rw [h0] at this; cases this
      rcases hrq : rsQ Q k with _ | ⟨r1, _ | ⟨r2, rest⟩⟩
      · exact absurd hrq hne
      · rw [hrq] at hE0
        simp only [List.map_cons, List.map_nil, mkEntry] at hE0
        subst hE0
        refine hset _ fun e => forall_congr' fun hk => ?_
        rw [hk, hrs, if_pos rfl, hrq]
        rfl
      · rw [hrq] at hE0
        simp only [List.map_cons, mkEntry] at hE0
        subst hE0
        refine hset _ fun e => forall_congr' fun hk => ?_
        rw [hk, hrs, if_pos rfl, hrq]
        simp only [List.cons_append, List.map_cons, List.map_append, List.map_nil, mkEntry]

/-- Reading the object of a state. -/
theorem run_state (ps : PState W) (hok : ∀ e ∈ ps.rules, RuleOK io names dst N e.1) {v : JVal} {s : Sax W}
    (htop : s.event io names .startObj = some { s with stack := ⟨.state, .object []⟩ :: s.stack }) (hr : s.rule = Sax.rule0 io)
    {D : DRule W → Prop} {Lb : String → Prop} (hi : JInv N s.pda D Lb) (hsrc : Ref s.pda.names v s.src) :
    ∃ p' pre wc lk, Sax.run io names (JState.events (jstate io str dst t ps)) s =
        some { s with pda := p', lastKey := lk, pre := pre, wc := wc, stack := bump s.stack, src := if names then s.src else s.src + 1 } ∧
      Ext s.pda p' ∧ JInv N p' (fun d => D d ∨ ∃ q ∈ pairs str t ps, d = dOf str dst t v q.2 q.1)
        (fun l => Lb l ∨ ∃ q ∈ pairs str t ps, lOf str t q.2 q.1 l) := by
  obtain ⟨_, hm⟩ := jstateQ_spec (io := io) (str := str) (dst := dst) (t := t) (pairs str t ps)
  have hne : ∀ e ∈ jstateQ io str dst t (pairs str t ps), rsQ (pairs str t ps) e.1 ≠ [] := by
    intro e he h0
    obtain ⟨⟨q, hq, hqk⟩, _⟩ := (hm e).1 he
    have := (mem_rsQ (pairs str t ps) e.1 q.1).2 (by rw [← hqk]; exact hq)
    rw [h0] at this; cases this
  have hokQ : ∀ q ∈ pairs str t ps, RuleOK io names dst N q.1 := by
    intro q hq
    unfold pairs at hq
    simp only [List.mem_flatMap, List.mem_map] at hq
    obtain ⟨e, he, k, _, rfl⟩ := hq
    exact hok e he
  obtain ⟨p1, pre, wc, lk, h1, h2, h3⟩ := run_entries (io := io) (names := names) (str := str) (dst := dst) (t := t)
    (jstateQ io str dst t (pairs str t ps)) (rsQ (pairs str t ps))
    (fun e he => ⟨((hm e).1 he).2, hne e he, fun r hr => hokQ _ ((mem_rsQ _ _ _).1 hr)⟩)
    (v := v) (s := { s with stack := ⟨.state, .object []⟩ :: s.stack }) rfl hr hi hsrc
  have hq : ∀ P : String → Rule W → Prop, (∃ e ∈ jstateQ io str dst t (pairs str t ps), ∃ r ∈ rsQ (pairs str t ps) e.1, P e.1 r) ↔
      ∃ q ∈ pairs str t ps, P q.2 q.1 := by
    intro P
    constructor
    · rintro ⟨e, he, r, hr, hP⟩
      exact ⟨(r, e.1), (mem_rsQ _ _ _).1 hr, hP⟩
    · rintro ⟨q, hq, hP⟩
      exact ⟨(q.2, mkEntry ((rsQ (pairs str t ps) q.2).map (jr io str dst t q.2))), (hm _).2 ⟨⟨q, hq, rfl⟩, rfl⟩, q.1, (mem_rsQ _ _ _).2 hq, hP⟩
  have hlk : ∃ lk', Sax.run io names (JState.events (jstate io str dst t ps)) s =
      some { s with pda := p1, lastKey := lk', pre := pre, wc := wc, stack := bump s.stack, src := if names then s.src else s.src + 1 } := by
    rw [jstate_eq]
    unfold JState.events objEvents
    rw [List.cons_append, run_cons _ _ _ _ htop, run_seq _ h1]
    simp only [Sax.run, Sax.event, Sax.endObj, Sax.elementDone]
    rcases hs : s.stack with _ | ⟨⟨ty, b⟩, st⟩
    · refine ⟨.none, ?_⟩
      cases names <;> rfl
    · cases b with
      | object m =>
        refine ⟨.none, ?_⟩
        cases names <;> rfl
      | array i =>
        refine ⟨lk, ?_⟩
        cases names <;> rfl
  obtain ⟨lk', hlk⟩ := hlk
  exact ⟨p1, pre, wc, lk', hlk, h2, h3.congr (fun d => by rw [hq (fun k r => d = dOf str dst t v k r)])
    (fun l => by rw [hq (fun k r => lOf str t k r l)])⟩

end

end Verif.Json
