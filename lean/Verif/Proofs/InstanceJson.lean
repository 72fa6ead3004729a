import Verif.Model.InstanceJson
import Verif.Spec.JsonText
import Verif.Spec.InstDoc
import Verif.Proofs.JsonRun
import Verif.Proofs.PAutJson

/-! # The handlers inside an instance do what they do on documents of their own -/

namespace Verif

variable {W : Type}

/-! ## What is open -/

/-- The outermost thing that is open is not an array. -/
def ObjBelow (f : List JFrame) : Prop := f.getLast? ≠ some .arr

theorem objBelow_tail {x : JFrame} {f : List JFrame} (h : ObjBelow (x :: f)) (hf : f ≠ []) : ObjBelow f := by
  unfold ObjBelow at *
  cases f with
  | nil => exact absurd rfl hf
  | cons y f => simpa using h

theorem objBelow_cons {x y : JFrame} {f : List JFrame} (h : ObjBelow (x :: f)) (hy : f = [] → y ≠ .arr) : ObjBelow (y :: f) := by
  unfold ObjBelow at *
  cases f with
  | nil => simpa using hy rfl
  | cons z f => simpa using h

/-- How many contexts an event opens and closes. -/
def JEv.opens : JEv → Nat
  | .startObj => 1
  | .startArr => 1
  | _ => 0
def JEv.closes : JEv → Nat
  | .endObj => 1
  | .endArr => 1
  | _ => 0

theorem valued_spec {f f' : List JFrame} (hb : ObjBelow f) (h : JFrame.valued f = some f') :
    ObjBelow f' ∧ f' ≠ [] ∧ f'.length = f.length := by
  cases f with
  | nil => cases h
  | cons x f =>
    cases x with
    | arr => cases h; exact ⟨hb, by simp, rfl⟩
    | key => cases h
    | val => cases h; exact ⟨objBelow_cons hb fun _ => by decide, by simp, by simp⟩

/-- What is open after an event that does not end the outermost object. -/
theorem after_spec {f f' : List JFrame} {e : JEv} (hb : ObjBelow f) (h : JFrame.after f e = some f') :
    (f' = [] → e = .endObj ∧ f = [.key]) ∧ (f' ≠ [] → ObjBelow f') ∧ f'.length + e.closes = f.length + e.opens := by
  have hv : ∀ f', JFrame.valued f = some f' → (f' = [] → False) ∧ (f' ≠ [] → ObjBelow f') ∧ f'.length = f.length :=
    fun f' h => let ⟨a, b, c⟩ := valued_spec hb h; ⟨b, fun _ => a, c⟩
  cases e with
  | startObj =>
    simp only [JFrame.after, Option.map_eq_some_iff] at h
    obtain ⟨g, hg, rfl⟩ := h
    obtain ⟨h1, h2, h3⟩ := valued_spec hb hg
    refine ⟨by simp, fun _ => ?_, by simp [JEv.opens, JEv.closes, h3]⟩
    cases g with
    | nil => exact absurd rfl h2
    | cons y g => unfold ObjBelow at *; simpa using h1
  | startArr =>
    simp only [JFrame.after, Option.map_eq_some_iff] at h
    obtain ⟨g, hg, rfl⟩ := h
    obtain ⟨h1, h2, h3⟩ := valued_spec hb hg
    refine ⟨by simp, fun _ => ?_, by simp [JEv.opens, JEv.closes, h3]⟩
    cases g with
    | nil => exact absurd rfl h2
    | cons y g => unfold ObjBelow at *; simpa using h1
  | key s =>
    simp only [JFrame.after] at h
    split at h
    · cases h
      exact ⟨by simp, fun _ => objBelow_cons hb fun _ => by decide, by simp [JEv.opens, JEv.closes]⟩
    · cases h
  | endObj =>
    simp only [JFrame.after] at h
    split at h
    · cases h
      refine ⟨?_, objBelow_tail hb, by simp [JEv.opens, JEv.closes]⟩
      rintro rfl
      exact ⟨rfl, rfl⟩
    · cases h
  | endArr =>
    simp only [JFrame.after] at h
    split at h
    · cases h
      refine ⟨?_, objBelow_tail hb, by simp [JEv.opens, JEv.closes]⟩
      rintro rfl
      exact absurd rfl hb
    · cases h
  | _ =>
    obtain ⟨h1, h2, h3⟩ := hv f' h
    exact ⟨fun h => (h1 h).elim, h2, by simp [JEv.opens, JEv.closes, h3]⟩

/-! ## The handler for the PDA -/

/-- The handler with more contexts below. -/
def Sax.onto (c : Sax W) (R : List JContext) : Sax W := { c with stack := c.stack ++ R }

theorem Sax.elementDone_onto {c : Sax W} (R : List JContext) (hc : c.stack ≠ []) : (c.onto R).elementDone = c.elementDone.onto R := by
  obtain ⟨x, r, hx⟩ : ∃ x r, c.stack = x :: r := by cases h : c.stack with
    | nil => exact absurd h hc
    | cons x r => exact ⟨x, r, rfl⟩
  obtain ⟨ty, b⟩ := x
  cases b <;> simp [Sax.onto, Sax.elementDone, hx]

theorem Sax.elementDone_stack (c : Sax W) : c.elementDone.stack.length = c.stack.length := by
  unfold Sax.elementDone
  split <;> simp_all

theorem Sax.insertLabel_stack (c : Sax W) (l : String) : (c.insertLabel l).1.stack = c.stack := rfl
theorem Sax.insertState_stack (c : Sax W) (l : String) : (c.insertState l).1.stack = c.stack := rfl

section
variable (io : WeightIO W) (names : Bool) {c : Sax W} (R : List JContext)

theorem Sax.skip_onto (hc : c.stack ≠ []) : (c.onto R).skip = c.skip.map (·.onto R) := by
  unfold Sax.skip
  by_cases h : c.lastKey = .unknown
  · rw [if_pos h, if_pos (show (c.onto R).lastKey = _ from h), Sax.elementDone_onto R hc]
    rfl
  · rw [if_neg h, if_neg (show ¬ (c.onto R).lastKey = _ from h)]
    rfl

theorem Sax.putWeight_onto (hc : c.stack ≠ []) (z : Int) : (c.onto R).putWeight io z = (c.putWeight io z).map (·.onto R) := by
  unfold Sax.putWeight
  rw [show (c.onto R).rule = c.rule from rfl, Option.map_map]
  congr 1
  funext w
  exact Sax.elementDone_onto (c := { c with rule := { c.rule with weight := w } }) R hc

theorem Sax.top_onto (hc : c.stack ≠ []) : (c.onto R).top = c.top := by
  unfold Sax.top Sax.onto
  cases h : c.stack with
  | nil => exact absurd h hc
  | cons x r => rfl

theorem Sax.int_onto (hc : c.stack ≠ []) (z : Int) : (c.onto R).int io z = (c.int io z).map (·.onto R) := by
  unfold Sax.int
  rw [Sax.top_onto R hc, Sax.putWeight_onto io R hc, show (c.onto R).lastKey = c.lastKey from rfl, Sax.elementDone_onto R hc]
  split
  · rfl
  · split
    · rfl
    · split <;> rfl
    · rfl

theorem Sax.uns_onto (hc : c.stack ≠ []) (n : Nat) : (c.onto R).uns io names n = (c.uns io names n).map (·.onto R) := by
  unfold Sax.uns
  rw [Sax.top_onto R hc, Sax.putWeight_onto io R hc, show (c.onto R).lastKey = c.lastKey from rfl, Sax.elementDone_onto R hc]
  have h := Sax.elementDone_onto (c := { c with rule := { c.rule with «to» := n } }) R hc
  split
  · rfl
  · split
    · split
      · rfl
      · exact congrArg some h
    · split <;> rfl
    · rfl
    · rfl

theorem Sax.str_onto (hc : c.stack ≠ []) (v : String) : (c.onto R).str names v = (c.str names v).map (·.onto R) := by
  unfold Sax.str
  have he : (c.onto R).stack.isEmpty = false := by
    unfold Sax.onto
    cases h : c.stack with
    | nil => exact absurd h hc
    | cons x r => rfl
  have he' : c.stack.isEmpty = false := by
    cases h : c.stack with
    | nil => exact absurd h hc
    | cons x r => rfl
  rw [he, he', show (c.onto R).lastKey = c.lastKey from rfl, show (c.onto R).wc = c.wc from rfl, Sax.elementDone_onto R hc]
  simp only [Bool.false_eq_true, if_false]
  have key : ∀ c' : Sax W, c'.stack = c.stack → some (c'.onto R).elementDone = (some c'.elementDone).map (·.onto R) := fun c' h =>
    congrArg some (Sax.elementDone_onto R (by rw [h]; exact hc))
  split
  · split
    · exact key { (c.insertState v).1 with rule := { (c.insertState v).1.rule with «to» := (c.insertState v).2 } } rfl
    · rfl
  · exact key { c with rule := { c.rule with op := .pop, opLabel := epsilon } } rfl
  · split
    · exact key { c with rule := { c.rule with op := .noop, opLabel := epsilon } } rfl
    · exact key { (c.insertLabel v).1 with rule := { (c.insertLabel v).1.rule with op := .swap, opLabel := (c.insertLabel v).2 } } rfl
  · exact key { (c.insertLabel v).1 with rule := { (c.insertLabel v).1.rule with op := .push, opLabel := (c.insertLabel v).2 } } rfl
  · rfl
  · rfl

theorem Sax.startObj_onto (hc : c.stack ≠ []) : (c.onto R).startObj io names = (c.startObj io names).map (·.onto R) := by
  unfold Sax.startObj
  rw [Sax.top_onto R hc, show (c.onto R).lastKey = c.lastKey from rfl]
  split
  · rename_i h
    unfold Sax.top at h
    cases h' : c.stack with
    | nil => exact absurd h' hc
    | cons x r => rw [h'] at h; cases h
  · rfl
  · rfl
  · split
    · rfl
    · split <;> rfl
    · rfl
    · rfl
    · rfl
    · rfl

theorem Sax.handleKey_onto (hc : c.stack ≠ []) (flag : Nat) (k : JKey) : (c.onto R).handleKey flag k = (c.handleKey flag k).map (·.onto R) := by
  unfold Sax.handleKey Sax.onto
  cases h' : c.stack with
  | nil => exact absurd h' hc
  | cons x r =>
    obtain ⟨ty, b⟩ := x
    cases b with
    | array i => rfl
    | object m =>
      dsimp only [List.cons_append]
      split <;> rfl

theorem Sax.key_onto (hc : c.stack ≠ []) (k : String) : (c.onto R).key io names k = (c.key io names k).map (·.onto R) := by
  unfold Sax.key
  rw [Sax.top_onto R hc]
  simp only [Sax.handleKey_onto R hc]
  split
  · rfl
  · split <;> rfl
  · split <;> rfl
  · split <;> rfl
  · split <;> rfl
  · repeat' split
    all_goals rfl
  · rfl
  · rfl

theorem Sax.startArr_onto (hc : c.stack ≠ []) : (c.onto R).startArr io names = (c.startArr io names).map (·.onto R) := by
  unfold Sax.startArr
  have he : (c.onto R).stack.isEmpty = false := by
    unfold Sax.onto
    cases h : c.stack with
    | nil => exact absurd h hc
    | cons x r => rfl
  have he' : c.stack.isEmpty = false := by
    cases h : c.stack with
    | nil => exact absurd h hc
    | cons x r => rfl
  rw [he, he', show (c.onto R).lastKey = c.lastKey from rfl]
  simp only [Bool.false_eq_true, if_false]
  split
  · split <;> rfl
  · rfl
  · rfl
  · split <;> rfl
  · rfl

theorem Sax.endArr_onto (hc : 2 ≤ c.stack.length) : (c.onto R).endArr = c.endArr.map (·.onto R) := by
  unfold Sax.endArr
  cases h' : c.stack with
  | nil => rw [h'] at hc; simp at hc
  | cons x r =>
    rw [h'] at hc
    have hr : r ≠ [] := by rintro rfl; simp at hc
    simp only [show (c.onto R).stack = c.stack ++ R from rfl, h', List.cons_append]
    exact congrArg some (Sax.elementDone_onto (c := { c with stack := r }) R hr)

variable [LinearOrder W]

theorem Sax.close_onto (hc : c.stack ≠ []) : (c.onto R).close io names = (c.close io names).map (·.onto R) := by
  unfold Sax.close
  cases h' : c.stack with
  | nil => exact absurd h' hc
  | cons x r =>
    obtain ⟨ty, b⟩ := x
    simp only [show (c.onto R).stack = c.stack ++ R from rfl, h', List.cons_append]
    cases b with
    | array i => rfl
    | object m =>
      cases m with
      | nil => cases ty <;> cases names <;> rfl
      | cons x m => rfl

theorem Sax.endObj_close (s : Sax W) : s.endObj io names = (s.close io names).map (·.elementDone) := by
  unfold Sax.endObj Sax.close
  cases s.stack with
  | nil => rfl
  | cons x r =>
    obtain ⟨ty, b⟩ := x
    cases b with
    | array i => rfl
    | object m => cases m <;> rfl

theorem Sax.close_stack {s s' : Sax W} (h : s.close io names = some s') : s'.stack = s.stack.tail ∧ s.stack ≠ [] := by
  unfold Sax.close at h
  split at h
  · rename_i ty r hs
    cases h
    rw [hs]
    exact ⟨rfl, by simp⟩
  · cases h

theorem Sax.event_length (e : JEv) {s s' : Sax W} (h : s.event io names e = some s') :
    s'.stack.length + e.closes = s.stack.length + e.opens := by
  have hd := fun s : Sax W => Sax.elementDone_stack s
  have hsk : ∀ s', s.skip = some s' → s'.stack.length = s.stack.length := by
    intro s' h
    unfold Sax.skip at h
    split at h
    · cases h; exact hd s
    · cases h
  have hp : ∀ z s', s.putWeight io z = some s' → s'.stack.length = s.stack.length := by
    intro z s' h
    unfold Sax.putWeight at h
    obtain ⟨w, _, rfl⟩ := Option.map_eq_some_iff.1 h
    exact hd _
  have hk : ∀ f k s', s.handleKey f k = some s' → s'.stack.length = s.stack.length := by
    intro f k s' h
    unfold Sax.handleKey at h
    split at h
    · rename_i hs
      split at h
      · cases h; rw [hs]; rfl
      · cases h
    · cases h
  cases e with
  | null => exact hsk _ h
  | bool b => exact hsk _ h
  | float => exact hsk _ h
  | int z =>
    simp only [Sax.event, Sax.int] at h
    show s'.stack.length = s.stack.length
    split at h
    · exact hp _ _ h
    · split at h
      · cases h; exact hd s
      · split at h
        · exact hp _ _ h
        · cases h
      · cases h
  | uns n =>
    simp only [Sax.event, Sax.uns] at h
    show s'.stack.length = s.stack.length
    split at h
    · exact hp _ _ h
    · split at h
      · split at h
        · cases h
        · cases h; exact hd _
      · split at h
        · exact hp _ _ h
        · cases h; exact hd s
      · cases h; exact hd s
      · cases h
  | str v =>
    simp only [Sax.event, Sax.str] at h
    show s'.stack.length = s.stack.length
    split at h
    · cases h
    · split at h
      · split at h
        · cases h; exact hd _
        · cases h
      · cases h; exact hd _
      · split at h
        · cases h; exact hd _
        · cases h; exact hd _
      · cases h; exact hd _
      · cases h; exact hd _
      · cases h
  | startObj =>
    simp only [Sax.event, Sax.startObj] at h
    show s'.stack.length = s.stack.length + 1
    repeat' split at h
    all_goals first
      | (cases h; rfl)
      | cases h
  | key k =>
    simp only [Sax.event, Sax.key] at h
    show s'.stack.length = s.stack.length
    repeat' split at h
    all_goals first
      | exact hk _ _ _ h
      | (cases h; rfl)
      | cases h
  | endObj =>
    simp only [Sax.event, Sax.endObj_close] at h
    obtain ⟨s1, h1, rfl⟩ := Option.map_eq_some_iff.1 h
    obtain ⟨h2, h3⟩ := Sax.close_stack io names h1
    show s1.elementDone.stack.length + 1 = s.stack.length
    rw [hd, h2, List.length_tail]
    have := List.length_pos_of_ne_nil h3
    omega
  | startArr =>
    simp only [Sax.event, Sax.startArr] at h
    show s'.stack.length = s.stack.length + 1
    repeat' split at h
    all_goals first
      | (cases h; rfl)
      | cases h
  | endArr =>
    simp only [Sax.event, Sax.endArr] at h
    show s'.stack.length + 1 = s.stack.length
    split at h
    · cases h
    · rename_i hs
      cases h
      rw [hd, hs]
      rfl

/-- No context is `initial`. -/
def Sax.NoInit (s : Sax W) : Prop := JCtx.initial ∉ s.stack.map (·.type)

theorem Sax.elementDone_types (s : Sax W) : s.elementDone.stack.map (·.type) = s.stack.map (·.type) := by
  unfold Sax.elementDone
  split <;> simp_all

theorem Sax.event_noInit (e : JEv) {s s' : Sax W} (hs : s.stack ≠ []) (hn : s.NoInit) (h : s.event io names e = some s') : s'.NoInit := by
  have hd : ∀ s : Sax W, s.NoInit → s.elementDone.NoInit := fun s h => by
    unfold Sax.NoInit
    rw [Sax.elementDone_types]
    exact h
  have hsk : ∀ s', s.skip = some s' → s'.NoInit := by
    intro s' h
    unfold Sax.skip at h
    split at h
    · cases h; exact hd s hn
    · cases h
  have hp : ∀ z s', s.putWeight io z = some s' → s'.NoInit := by
    intro z s' h
    unfold Sax.putWeight at h
    obtain ⟨w, _, rfl⟩ := Option.map_eq_some_iff.1 h
    exact hd _ hn
  have hk : ∀ f k s', s.handleKey f k = some s' → s'.NoInit := by
    intro f k s' h
    unfold Sax.handleKey at h
    split at h
    · rename_i hs
      split at h
      · cases h
        unfold Sax.NoInit at hn ⊢
        rw [hs] at hn
        exact hn
      · cases h
    · cases h
  have hpush : ∀ ty b, ty ≠ .initial → (s.push ty b).NoInit := fun ty b h => by
    unfold Sax.NoInit Sax.push at *
    simp only [List.map_cons, List.mem_cons, not_or]
    exact ⟨Ne.symm h, hn⟩
  have htop : s.top ≠ none := by
    unfold Sax.top
    cases h : s.stack with
    | nil => exact absurd h hs
    | cons x r => simp
  cases e with
  | null => exact hsk _ h
  | bool b => exact hsk _ h
  | float => exact hsk _ h
  | int z =>
    simp only [Sax.event, Sax.int] at h
    split at h
    · exact hp _ _ h
    · split at h
      · cases h; exact hd s hn
      · split at h
        · exact hp _ _ h
        · cases h
      · cases h
  | uns n =>
    simp only [Sax.event, Sax.uns] at h
    split at h
    · exact hp _ _ h
    · split at h
      · split at h
        · cases h
        · cases h; exact hd _ hn
      · split at h
        · exact hp _ _ h
        · cases h; exact hd s hn
      · cases h; exact hd s hn
      · cases h
  | str v =>
    simp only [Sax.event, Sax.str] at h
    split at h
    · cases h
    · split at h
      · split at h
        · cases h; exact hd _ hn
        · cases h
      · cases h; exact hd _ hn
      · split at h
        · cases h; exact hd _ hn
        · cases h; exact hd _ hn
      · cases h; exact hd _ hn
      · cases h; exact hd _ hn
      · cases h
  | startObj =>
    simp only [Sax.event, Sax.startObj] at h
    repeat' split at h
    all_goals first
      | exact absurd ‹_› htop
      | (cases h; exact hpush _ _ (by decide))
      | (cases h; exact hn)
      | cases h
  | key k =>
    simp only [Sax.event, Sax.key] at h
    repeat' split at h
    all_goals first
      | exact hk _ _ _ h
      | exact absurd ‹_› htop
      | (cases h; exact hpush _ _ (by decide))
      | (cases h; exact hn)
      | cases h
  | endObj =>
    simp only [Sax.event, Sax.endObj_close] at h
    obtain ⟨s1, h1, rfl⟩ := Option.map_eq_some_iff.1 h
    obtain ⟨h2, h3⟩ := Sax.close_stack io names h1
    refine hd _ ?_
    unfold Sax.NoInit at *
    rw [h2]
    exact fun h => hn (by rw [List.map_tail] at h; exact List.mem_of_mem_tail h)
  | startArr =>
    simp only [Sax.event, Sax.startArr] at h
    repeat' split at h
    all_goals first
      | exact absurd ‹_› htop
      | (cases h; exact hpush _ _ (by decide))
      | (cases h; exact hn)
      | cases h
  | endArr =>
    simp only [Sax.event, Sax.endArr] at h
    split at h
    · cases h
    · rename_i hs
      cases h
      refine hd _ ?_
      unfold Sax.NoInit at *
      rw [hs] at hn
      exact fun h => hn (List.mem_cons_of_mem _ h)

theorem Sax.event_onto (hc : c.stack ≠ []) (e : JEv) (h : e.closes + 1 ≤ c.stack.length) :
    (c.onto R).event io names e = (c.event io names e).map (·.onto R) := by
  cases e with
  | null => exact Sax.skip_onto R hc
  | bool b => exact Sax.skip_onto R hc
  | float => exact Sax.skip_onto R hc
  | int z => exact Sax.int_onto io R hc z
  | uns n => exact Sax.uns_onto io names R hc n
  | str v => exact Sax.str_onto names R hc v
  | startObj => exact Sax.startObj_onto io names R hc
  | key k => exact Sax.key_onto io names R hc k
  | endObj =>
    simp only [Sax.event, Sax.endObj_close, Sax.close_onto io names R hc, Option.map_map]
    cases h1 : c.close io names with
    | none => rfl
    | some c' =>
      refine congrArg some (Sax.elementDone_onto R ?_)
      have h2 := (Sax.close_stack io names h1).1
      have h3 : 2 ≤ c.stack.length := h
      intro h4
      rw [h4] at h2
      have := congrArg List.length h2
      simp at this
      omega
  | startArr => exact Sax.startArr_onto io names R hc
  | endArr => exact Sax.endArr_onto R h

end

/-! ## The handler for the automata -/

/-- The handler with more contexts below. -/
def PSax.onto (c : PSax W) (R : List (PCtx × JBody)) : PSax W := { c with stack := c.stack ++ R }

def SaxRes.map {α β : Type} (f : α → β) (x : SaxRes α) : SaxRes β := x.bind fun a => .ok (f a)

theorem PSax.elementDone_onto {c : PSax W} (R : List (PCtx × JBody)) (hc : c.stack ≠ []) : (c.onto R).elementDone = c.elementDone.onto R := by
  obtain ⟨x, r, hx⟩ : ∃ x r, c.stack = x :: r := by cases h : c.stack with
    | nil => exact absurd h hc
    | cons x r => exact ⟨x, r, rfl⟩
  obtain ⟨ty, b⟩ := x
  cases b <;> simp [PSax.onto, PSax.elementDone, hx]

theorem PSax.elementDone_stack (c : PSax W) : c.elementDone.stack.length = c.stack.length := by
  unfold PSax.elementDone
  split <;> simp_all

section
variable {c : PSax W} (R : List (PCtx × JBody)) (names : Bool)

theorem PSax.value_onto (hc : c.stack ≠ []) (r : JRef) : (c.onto R).value names r = (c.value names r).map (·.onto R) := by
  obtain ⟨⟨ty, b⟩, rest, hx⟩ : ∃ x r, c.stack = x :: r := by cases h : c.stack with
    | nil => exact absurd h hc
    | cons x r => exact ⟨x, r, rfl⟩
  have key : ∀ c' : PSax W, c'.stack = c.stack → (SaxRes.ok (c'.onto R).elementDone) = (SaxRes.ok c'.elementDone).map (·.onto R) := fun c' h =>
    congrArg SaxRes.ok (PSax.elementDone_onto R (by rw [h]; exact hc))
  have k0 := key c rfl
  unfold PSax.value
  simp only [show (c.onto R).stack = c.stack ++ R from rfl, hx, List.cons_append, show (c.onto R).make = c.make from rfl]
  cases ty with
  | initial => rfl
  | pAutomaton => rfl
  | initialArray =>
    dsimp only
    split
    · exact k0
    · rfl
  | acceptingArray =>
    dsimp only
    split
    · rename_i x _
      exact key { c with make := { x.1 with aut := x.1.aut.setAccepting x.2 }, stack := (PCtx.acceptingArray, b) :: rest } hx.symm
    · rfl
  | edgesArray => rfl
  | edge =>
    cases b with
    | object m => rfl
    | array i =>
      rcases i with _ | _ | _ | i
      · show (match c.make.state names r with
          | some x => SaxRes.ok { c with make := x.1, src := x.2, stack := (PCtx.edge, JBody.array 0) :: (rest ++ R) }.elementDone
          | none => .error) = SaxRes.map (·.onto R) (match c.make.state names r with
          | some x => SaxRes.ok { c with make := x.1, src := x.2, stack := (PCtx.edge, JBody.array 0) :: rest }.elementDone
          | none => .error)
        cases c.make.state names r with
        | none => rfl
        | some x => exact key { c with make := x.1, src := x.2, stack := (PCtx.edge, JBody.array 0) :: rest } hx.symm
      · cases r with
        | num n => rfl
        | name l => exact key { c with label := l, stack := (PCtx.edge, JBody.array 1) :: rest } hx.symm
      · show (match c.make.state names r with
          | some x => SaxRes.ok { c with make := x.1, dst := x.2, stack := (PCtx.edge, JBody.array 2) :: (rest ++ R) }.elementDone
          | none => .error) = SaxRes.map (·.onto R) (match c.make.state names r with
          | some x => SaxRes.ok { c with make := x.1, dst := x.2, stack := (PCtx.edge, JBody.array 2) :: rest }.elementDone
          | none => .error)
        cases c.make.state names r with
        | none => rfl
        | some x => exact key { c with make := x.1, dst := x.2, stack := (PCtx.edge, JBody.array 2) :: rest } hx.symm
      · rfl

theorem PSax.handleKey_onto (hc : c.stack ≠ []) (flag : Nat) (k : PKey) : (c.onto R).handleKey flag k = (c.handleKey flag k).map (·.onto R) := by
  unfold PSax.handleKey PSax.onto
  cases h' : c.stack with
  | nil => exact absurd h' hc
  | cons x r =>
    obtain ⟨ty, b⟩ := x
    cases b with
    | array i => rfl
    | object m =>
      dsimp only [List.cons_append]
      split <;> rfl

theorem PSax.key_onto (hc : c.stack ≠ []) (k : String) : (c.onto R).key k = (c.key k).map (·.onto R) := by
  obtain ⟨⟨ty, b⟩, rest, hx⟩ : ∃ x r, c.stack = x :: r := by cases h : c.stack with
    | nil => exact absurd h hc
    | cons x r => exact ⟨x, r, rfl⟩
  unfold PSax.key
  simp only [PSax.handleKey_onto R hc, show (c.onto R).req = c.req from rfl]
  simp only [show (c.onto R).stack = c.stack ++ R from rfl, hx, List.cons_append]
  cases ty with
  | initial => dsimp only; split <;> rfl
  | pAutomaton =>
    dsimp only
    repeat' split
    all_goals rfl
  | _ => rfl

theorem PSax.startArr_onto (hc : c.stack ≠ []) : (c.onto R).startArr = c.startArr.map (·.onto R) := by
  obtain ⟨⟨ty, b⟩, rest, hx⟩ : ∃ x r, c.stack = x :: r := by cases h : c.stack with
    | nil => exact absurd h hc
    | cons x r => exact ⟨x, r, rfl⟩
  unfold PSax.startArr
  simp only [show (c.onto R).lastKey = c.lastKey from rfl]
  simp only [show (c.onto R).stack = c.stack ++ R from rfl, hx, List.cons_append]
  cases ty <;> dsimp only <;> first | rfl | (split <;> rfl)

theorem PSax.startObj_onto (hc : c.stack ≠ []) : (c.onto R).startObj = c.startObj.map (·.onto R) := by
  obtain ⟨⟨ty, b⟩, rest, hx⟩ : ∃ x r, c.stack = x :: r := by cases h : c.stack with
    | nil => exact absurd h hc
    | cons x r => exact ⟨x, r, rfl⟩
  unfold PSax.startObj
  simp only [show (c.onto R).lastKey = c.lastKey from rfl, show (c.onto R).req = c.req from rfl]
  simp only [show (c.onto R).stack = c.stack ++ R from rfl, hx, List.cons_append, List.isEmpty_cons, Bool.false_eq_true, if_false]
  split <;> rfl

variable [Zero W]

theorem PSax.event_length (e : JEv) {s s' : PSax W} (h : s.event names e = .ok s') :
    s'.stack.length + e.closes = s.stack.length + e.opens := by
  have hd := fun s : PSax W => PSax.elementDone_stack s
  have hk : ∀ f k s', s.handleKey f k = .ok s' → s'.stack.length = s.stack.length := by
    intro f k s' h
    unfold PSax.handleKey at h
    split at h
    · rename_i hs
      split at h
      · cases h; rw [hs]; rfl
      · cases h
    · cases h
  have hv : ∀ r s', s.value names r = .ok s' → s'.stack.length = s.stack.length := by
    intro r s' h
    unfold PSax.value at h
    repeat' split at h
    all_goals first
      | (cases h; exact hd _)
      | cases h
  cases e with
  | null => cases h
  | bool b => cases h
  | float => cases h
  | int z => cases h
  | uns n => exact hv (.num n) _ h
  | str v => exact hv (.name v) _ h
  | startObj =>
    simp only [PSax.event, PSax.startObj] at h
    show s'.stack.length = s.stack.length + 1
    repeat' split at h
    all_goals first
      | (cases h; rfl)
      | cases h
  | key k =>
    simp only [PSax.event, PSax.key] at h
    show s'.stack.length = s.stack.length
    repeat' split at h
    all_goals first
      | exact hk _ _ _ h
      | (cases h; rfl)
      | cases h
  | endObj =>
    simp only [PSax.event, PSax.endObj] at h
    show s'.stack.length + 1 = s.stack.length
    split at h
    · rename_i hs
      cases h
      rw [hd, hs]
      rfl
    · cases h
  | startArr =>
    simp only [PSax.event, PSax.startArr] at h
    show s'.stack.length = s.stack.length + 1
    repeat' split at h
    all_goals first
      | (cases h; rfl)
      | cases h
  | endArr =>
    simp only [PSax.event, PSax.endArr] at h
    show s'.stack.length + 1 = s.stack.length
    split at h
    · cases h
    · rename_i hs
      split at h
      · cases h
      · cases h
        rw [hd, hs]
        rfl
    · rename_i hs
      cases h
      rw [hd, hs]
      rfl

/-- No context is `initial`. -/
def PSax.NoInit (s : PSax W) : Prop := PCtx.initial ∉ s.stack.map (·.1)

omit [Zero W] in
theorem PSax.elementDone_types (s : PSax W) : s.elementDone.stack.map (·.1) = s.stack.map (·.1) := by
  unfold PSax.elementDone
  split <;> simp_all

theorem PSax.event_noInit (e : JEv) {s s' : PSax W} (hs0 : s.stack ≠ []) (hn : s.NoInit) (h : s.event names e = .ok s') : s'.NoInit := by
  have hd : ∀ s : PSax W, s.NoInit → s.elementDone.NoInit := fun s h => by
    unfold PSax.NoInit
    rw [PSax.elementDone_types]
    exact h
  have hk : ∀ f k s', s.handleKey f k = .ok s' → s'.NoInit := by
    intro f k s' h
    unfold PSax.handleKey at h
    split at h
    · rename_i hs
      split at h
      · cases h
        unfold PSax.NoInit at hn ⊢
        rw [hs] at hn
        exact hn
      · cases h
    · cases h
  have hpush : ∀ ty b, ty ≠ .initial → (s.push ty b).NoInit := fun ty b h => by
    unfold PSax.NoInit PSax.push at *
    simp only [List.map_cons, List.mem_cons, not_or]
    exact ⟨Ne.symm h, hn⟩
  have hv : ∀ r s', s.value names r = .ok s' → s'.NoInit := by
    intro r s' h
    unfold PSax.value at h
    repeat' split at h
    all_goals first
      | (cases h; exact hd _ hn)
      | cases h
  cases e with
  | null => cases h
  | bool b => cases h
  | float => cases h
  | int z => cases h
  | uns n => exact hv (.num n) _ h
  | str v => exact hv (.name v) _ h
  | startObj =>
    simp only [PSax.event, PSax.startObj] at h
    repeat' split at h
    all_goals first
      | exact absurd (List.isEmpty_iff.1 ‹_›) hs0
      | (cases h; exact hpush _ _ (by decide))
      | (cases h; exact hn)
      | cases h
  | key k =>
    simp only [PSax.event, PSax.key] at h
    repeat' split at h
    all_goals first
      | exact hk _ _ _ h
      | exact absurd (List.isEmpty_iff.1 ‹_›) hs0
      | (cases h; exact hpush _ _ (by decide))
      | (cases h; exact hn)
      | cases h
  | endObj =>
    simp only [PSax.event, PSax.endObj] at h
    split at h
    · rename_i hs
      cases h
      refine hd _ ?_
      unfold PSax.NoInit at *
      rw [hs] at hn
      exact fun h => hn (List.mem_cons_of_mem _ h)
    · cases h
  | startArr =>
    simp only [PSax.event, PSax.startArr] at h
    repeat' split at h
    all_goals first
      | exact absurd (List.isEmpty_iff.1 ‹_›) hs0
      | (cases h; exact hpush _ _ (by decide))
      | (cases h; exact hn)
      | cases h
  | endArr =>
    simp only [PSax.event, PSax.endArr] at h
    split at h
    · cases h
    · rename_i hs
      split at h
      · cases h
      · cases h
        refine hd _ ?_
        unfold PSax.NoInit at *
        rw [hs] at hn
        exact fun h => hn (List.mem_cons_of_mem _ h)
    · rename_i hs
      cases h
      refine hd _ ?_
      unfold PSax.NoInit at *
      rw [hs] at hn
      exact fun h => hn (List.mem_cons_of_mem _ h)

theorem PSax.event_onto (hc : c.stack ≠ []) (e : JEv) (h : e.closes + 1 ≤ c.stack.length) :
    (c.onto R).event names e = (c.event names e).map (·.onto R) := by
  obtain ⟨⟨ty, b⟩, rest, hx⟩ : ∃ x r, c.stack = x :: r := by cases h : c.stack with
    | nil => exact absurd h hc
    | cons x r => exact ⟨x, r, rfl⟩
  cases e with
  | null => rfl
  | bool b => rfl
  | float => rfl
  | int z => rfl
  | uns n => exact PSax.value_onto R names hc (.num n)
  | str v => exact PSax.value_onto R names hc (.name v)
  | startObj => exact PSax.startObj_onto R hc
  | key k => exact PSax.key_onto R hc k
  | endObj =>
    have hr : rest ≠ [] := by rintro rfl; rw [hx] at h; simp [JEv.closes] at h
    simp only [PSax.event, PSax.endObj, show (c.onto R).stack = c.stack ++ R from rfl, hx, List.cons_append]
    cases b with
    | array i => rfl
    | object m =>
      cases m with
      | nil => exact congrArg SaxRes.ok (PSax.elementDone_onto (c := { c with stack := rest }) R hr)
      | cons x m => rfl
  | startArr => exact PSax.startArr_onto R hc
  | endArr =>
    have hr : rest ≠ [] := by rintro rfl; rw [hx] at h; simp [JEv.closes] at h
    simp only [PSax.event, PSax.endArr, show (c.onto R).stack = c.stack ++ R from rfl, hx, List.cons_append,
      show (c.onto R).src = c.src from rfl, show (c.onto R).dst = c.dst from rfl]
    cases ty with
    | edge =>
      dsimp only
      split
      · rfl
      · exact congrArg SaxRes.ok (PSax.elementDone_onto (c := { c with stack := rest, make := c.make.edge c.src c.dst c.label }) R hr)
    | _ => exact congrArg SaxRes.ok (PSax.elementDone_onto (c := { c with stack := rest }) R hr)

end

/-! ## Running them inside the instance -/

def SaxRes.of {α : Type} : Option α → SaxRes α
  | some a => .ok a
  | none => .error

theorem Completes.nonempty {f : List JFrame} {es : List JEv} (h : Completes f es) (hf : f ≠ []) :
    ∃ e es' f', es = e :: es' ∧ JFrame.after f e = some f' ∧ Completes f' es' := by
  cases h with
  | done => exact absurd rfl hf
  | step h1 h2 => exact ⟨_, _, _, rfl, h1, h2⟩

theorem Completes.eq_nil {es : List JEv} (h : Completes [] es) : es = [] := by
  cases h with
  | done => rfl
  | @step _ _ e _ h1 _ => cases e <;> simp [JFrame.after, JFrame.valued] at h1

theorem room {f f' : List JFrame} {e : JEv} (hf : f ≠ []) (hf' : f' ≠ []) (h : f'.length + e.closes = f.length + e.opens) : e.closes + 1 ≤ f.length := by
  have h1 := List.length_pos_of_ne_nil hf
  have h2 := List.length_pos_of_ne_nil hf'
  have h3 : e.closes = 0 ∨ e.opens = 0 := by cases e <;> simp [JEv.opens, JEv.closes]
  omega

theorem run_pda (k : WKind) (names : Bool) (s : ISax) (rest : List JEv) {ty : ICtx} {r : List (ICtx × JBody)} (hs : s.stack = (ty, .array 2) :: r)
    {es : List JEv} : ∀ {f : List JFrame}, Completes f es → f ≠ [] → ObjBelow f → ∀ c : Sax k.Carrier, c.stack.length = f.length → c.NoInit →
    (∀ u, Sax.run k.io names es (c.onto [⟨.initial, .object []⟩]) = some u → u.stack = [⟨.initial, .object []⟩]) ∧
    ISax.run (es ++ rest) { s with phase := .pda k names (c.onto [⟨.initial, .object [1]⟩]) }
      = (SaxRes.of (Sax.run k.io names es (c.onto [⟨.initial, .object []⟩]))).bind fun u =>
          ISax.run rest { s with stack := (ty, .array 3) :: r, phase := .first k names (PSax.inside u.pda) } := by
  induction es with
  | nil => intro f h hf; cases h; exact absurd rfl hf
  | cons e es ih =>
    intro f hC hf hb c hl hn
    obtain ⟨_, _, f', he, ha, hC'⟩ := hC.nonempty hf
    cases he
    obtain ⟨h1, h2, h3⟩ := after_spec hb ha
    have hc : c.stack ≠ [] := by
      intro h; rw [h] at hl; exact hf (List.eq_nil_of_length_eq_zero hl.symm)
    by_cases hf' : f' = []
    · obtain ⟨rfl, rfl⟩ := h1 hf'
      subst hf'
      have := hC'.eq_nil
      subst this
      have e1 : ∀ R, Sax.event k.io names (c.onto R) .endObj = ((c.close k.io names).map (·.onto R)).map (·.elementDone) := fun R => by
        show Sax.endObj k.io names (c.onto R) = _
        rw [Sax.endObj_close, Sax.close_onto k.io names R hc]
      simp only [Sax.run, e1, List.cons_append, List.nil_append, ISax.run]
      simp only [ISax.event, Sax.eventIn, if_true, Sax.endObjIn, Sax.close_onto k.io names _ hc]
      cases hcl : c.close k.io names with
      | none => exact ⟨by simp, rfl⟩
      | some c' =>
        have hst : c'.stack = [] := by
          rw [(Sax.close_stack k.io names hcl).1]
          exact List.eq_nil_of_length_eq_zero (by rw [List.length_tail, hl]; rfl)
        simp only [Option.map_some, Option.bind_some, Option.some.injEq, forall_eq', Sax.onto, hst, List.nil_append,
          SaxRes.bind, SaxRes.of, if_true]
        refine ⟨by simp [Sax.elementDone], ?_⟩
        simp [ISax.callback, hs, ISax.elementDone, SaxRes.bind, Sax.elementDone]
    · have h5 : e.closes + 1 ≤ c.stack.length := hl ▸ room hf hf' h3
      have e1 : ∀ R, Sax.event k.io names (c.onto R) e = (Sax.event k.io names c e).map (·.onto R) := fun R => Sax.event_onto k.io names R hc e h5
      have e2 : Sax.eventIn k.io names (c.onto [⟨.initial, .object [1]⟩]) e
          = (SaxRes.of (Sax.event k.io names c e)).bind fun u => .ok (u.onto [⟨.initial, .object [1]⟩], false) := by
        unfold Sax.eventIn
        by_cases hobj : e = .endObj
        · rw [if_pos hobj]
          subst hobj
          unfold Sax.endObjIn
          rw [Sax.close_onto k.io names _ hc]
          show _ = SaxRes.bind (SaxRes.of (Sax.endObj k.io names c)) _
          rw [Sax.endObj_close]
          cases hcl : c.close k.io names with
          | none => rfl
          | some c' =>
            have h6 := (Sax.close_stack k.io names hcl).1
            have h7 : c'.stack ≠ [] := by
              intro h
              have := congrArg List.length h6
              rw [h, List.length_tail] at this
              simp [JEv.closes] at h5 this
              omega
            obtain ⟨⟨t, b⟩, q, hq⟩ : ∃ x r, c'.stack = x :: r := by cases h : c'.stack with
              | nil => exact absurd h h7
              | cons x r => exact ⟨x, r, rfl⟩
            have ht : t ≠ .initial := by
              rintro rfl
              refine hn ?_
              have : (⟨.initial, b⟩ : JContext) ∈ c.stack := List.mem_of_mem_tail (by rw [← h6, hq]; exact List.mem_cons_self)
              exact List.mem_map.2 ⟨_, this, rfl⟩
            have h8 := Sax.elementDone_onto (c := c') [⟨.initial, .object [1]⟩] h7
            simp only [Option.map_some, Sax.onto, hq, List.cons_append, SaxRes.of, SaxRes.bind]
            simp only [Sax.onto, hq, List.cons_append] at h8
            cases t <;> first | exact absurd rfl ht | (simp only [h8])
        · rw [if_neg hobj, e1]
          cases Sax.event k.io names c e <;> rfl
      simp only [Sax.run, e1, List.cons_append, ISax.run]
      simp only [ISax.event, e2]
      cases hev : Sax.event k.io names c e with
      | none => exact ⟨by simp, rfl⟩
      | some c' =>
        have h9 := Sax.event_length k.io names e hev
        simp only [Option.map_some, Option.bind_some, SaxRes.of, SaxRes.bind, Bool.false_eq_true, if_false]
        exact ih hC' hf' (h2 hf') c' (by omega) (Sax.event_noInit k.io names e hc hn hev)

theorem run_aut {W : Type} [Zero W] (names : Bool) (s : ISax) (rest : List JEv) (wrap : PSax W → IPhase) (next : PSax W → ISax)
    (hw : ∀ u e, ISax.event { s with phase := wrap u } e = (u.eventIn names e).bind fun x =>
      if x.2 then { s with phase := wrap x.1 }.callback else .ok { s with phase := wrap x.1 })
    (hcb : ∀ u, { s with phase := wrap u }.callback = .ok (next u)) (hnext : ∀ u u', u.make = u'.make → next u = next u')
    {es : List JEv} : ∀ {f : List JFrame}, Completes f es → f ≠ [] → ObjBelow f → ∀ c : PSax W, c.stack.length = f.length → c.NoInit →
    (∀ u, PSax.run names es (c.onto [(.initial, .object [])]) = .ok u → u.stack = [(.initial, .object [])]) ∧
    ISax.run (es ++ rest) { s with phase := wrap (c.onto [(.initial, .object [1])]) }
      = (PSax.run names es (c.onto [(.initial, .object [])])).bind fun u => ISax.run rest (next u) := by
  induction es with
  | nil => intro f h hf; cases h; exact absurd rfl hf
  | cons e es ih =>
    intro f hC hf hb c hl hn
    obtain ⟨_, _, f', he, ha, hC'⟩ := hC.nonempty hf
    cases he
    obtain ⟨h1, h2, h3⟩ := after_spec hb ha
    obtain ⟨⟨t, b⟩, q, hq⟩ : ∃ x r, c.stack = x :: r := by cases h : c.stack with
      | nil => rw [h] at hl; exact absurd (List.eq_nil_of_length_eq_zero hl.symm) hf
      | cons x r => exact ⟨x, r, rfl⟩
    have hc : c.stack ≠ [] := by rw [hq]; simp
    by_cases hf' : f' = []
    · obtain ⟨rfl, rfl⟩ := h1 hf'
      subst hf'
      have := hC'.eq_nil
      subst this
      have hq0 : q = [] := by
        rw [hq] at hl
        exact List.eq_nil_of_length_eq_zero (by simpa using hl)
      subst hq0
      simp only [PSax.run, List.cons_append, List.nil_append, ISax.run]
      rw [hw]
      simp only [PSax.event, PSax.endObj, PSax.eventIn, if_true, PSax.endObjIn]
      simp only [show ∀ R, (c.onto R).stack = c.stack ++ R from fun _ => rfl, hq, List.cons_append, List.nil_append]
      cases b with
      | array i => exact ⟨by simp [SaxRes.bind], rfl⟩
      | object m =>
        cases m with
        | cons x m => exact ⟨by simp [SaxRes.bind], rfl⟩
        | nil =>
          simp only [SaxRes.bind, if_true, hcb]
          refine ⟨by simp [PSax.elementDone], ?_⟩
          rw [hnext _ _ ?_]
          rfl
    · have h5 : e.closes + 1 ≤ c.stack.length := hl ▸ room hf hf' h3
      have e1 : ∀ R, PSax.event names (c.onto R) e = (PSax.event names c e).map (·.onto R) := fun R => PSax.event_onto R names hc e h5
      have e2 : PSax.eventIn names (c.onto [(.initial, .object [1])]) e
          = (PSax.event names c e).bind fun u => .ok (u.onto [(.initial, .object [1])], false) := by
        unfold PSax.eventIn
        by_cases hobj : e = .endObj
        · rw [if_pos hobj]
          subst hobj
          obtain ⟨⟨t', b'⟩, q', hq'⟩ : ∃ x r, q = x :: r := by cases h : q with
            | nil => rw [hq, h] at h5; simp [JEv.closes] at h5
            | cons x r => exact ⟨x, r, rfl⟩
          subst hq'
          have ht : t' ≠ .initial := by
            rintro rfl
            refine hn ?_
            rw [hq]
            simp
          show PSax.endObjIn _ = SaxRes.bind (PSax.endObj c) _
          have h8 := PSax.elementDone_onto (c := { c with stack := (t', b') :: q' }) [(.initial, .object [1])] (by simp)
          simp only [PSax.onto, List.cons_append] at h8
          simp only [PSax.endObjIn, PSax.endObj, PSax.onto, hq, List.cons_append]
          cases b with
          | array i => rfl
          | object m =>
            cases m with
            | cons x m => rfl
            | nil =>
              simp only [SaxRes.bind]
              cases t' <;> first | exact absurd rfl ht | (simp only [h8])
        · rw [if_neg hobj, e1]
          cases PSax.event names c e <;> rfl
      simp only [PSax.run, e1, List.cons_append, ISax.run]
      rw [hw, e2]
      cases hev : PSax.event names c e with
      | error => exact ⟨by simp [SaxRes.bind, SaxRes.map], rfl⟩
      | undefined => exact ⟨by simp [SaxRes.bind, SaxRes.map], rfl⟩
      | ok c' =>
        have h9 := PSax.event_length names e hev
        simp only [SaxRes.map, SaxRes.bind, Bool.false_eq_true, if_false]
        exact ih hC' hf' (h2 hf') c' (by omega) (PSax.event_noInit names e hc hn hev)

/-- The second element is read like the value of `pda` in a document of its own. -/
theorem inst_pda (k : WKind) (names : Bool) (s : ISax) (rest : List JEv) {ty : ICtx} {r : List (ICtx × JBody)} (hs : s.stack = (ty, .array 2) :: r)
    {es : List JEv} (h : IsObject es) :
    ISax.run (es ++ rest) { s with phase := .pda k names (Sax.inside k.io) }
      = (SaxRes.of (parsePda k.io names ([.startObj, .key "pda"] ++ es ++ [.endObj]))).bind fun p =>
          ISax.run rest { s with stack := (ty, .array 3) :: r, phase := .first k names (PSax.inside p) } := by
  obtain ⟨es, rfl, hC⟩ := h
  let c : Sax k.Carrier := { rule := Sax.rule0 k.io, lastKey := .pda, stack := [⟨.pda, .object [1]⟩] }
  obtain ⟨h1, h2⟩ := run_pda k names s rest hs hC (by simp) (by unfold ObjBelow; decide) c rfl (by simp [Sax.NoInit, c])
  have h3 : parsePda k.io names ([.startObj, .key "pda"] ++ .startObj :: es ++ [.endObj])
      = (Sax.run k.io names es (c.onto [⟨.initial, .object []⟩])).map (·.pda) := by
    have e1 : parsePda k.io names ([.startObj, .key "pda"] ++ .startObj :: es ++ [.endObj])
        = (Sax.run k.io names (es ++ [.endObj]) (c.onto [⟨.initial, .object []⟩])).map (·.pda) := rfl
    rw [e1, Json.run_append]
    cases hr : Sax.run k.io names es (c.onto [⟨.initial, .object []⟩]) with
    | none => rfl
    | some u =>
      have := h1 u hr
      simp [Sax.run, Sax.event, Sax.endObj, this, Sax.elementDone]
  rw [h3]
  have h4 : ISax.run (.startObj :: es ++ rest) { s with phase := .pda k names (Sax.inside k.io) }
      = ISax.run (es ++ rest) { s with phase := .pda k names (c.onto [⟨.initial, .object [1]⟩]) } := rfl
  rw [h4, h2]
  cases Sax.run k.io names es (c.onto [⟨.initial, .object []⟩]) <;> rfl

/-- The third and the fourth element are read like the value of `P-automaton` in a document of its own. -/
theorem inst_aut {W : Type} [Zero W] (names : Bool) (s : ISax) (rest : List JEv) (wrap : PSax W → IPhase) (next : NPda String String W → NAut W → ISax)
    (hw : ∀ u e, ISax.event { s with phase := wrap u } e = (u.eventIn names e).bind fun x =>
      if x.2 then { s with phase := wrap x.1 }.callback else .ok { s with phase := wrap x.1 })
    (hcb : ∀ u, { s with phase := wrap u }.callback = .ok (next u.make.pda u.aut)) (p : NPda String String W)
    {es : List JEv} (h : IsObject es) :
    ISax.run (es ++ rest) { s with phase := wrap (PSax.inside p) }
      = (parseJAutR false names p ([.startObj, .key "P-automaton"] ++ es ++ [.endObj])).bind fun x => ISax.run rest (next x.1 x.2) := by
  obtain ⟨es, rfl, hC⟩ := h
  let c : PSax W := { make := { pda := p, aut := Aut.special p.states.length [] true }, req := false, lastKey := .pAutomaton, stack := [(.pAutomaton, .object [1, 2])] }
  obtain ⟨h1, h2⟩ := run_aut names s rest wrap (fun u => next u.make.pda u.aut) hw hcb
    (fun u u' h => by simp only [PSax.aut, h]) hC (by simp) (by unfold ObjBelow; decide) c rfl (by simp [PSax.NoInit, c])
  have h3 : parseJAutR false names p ([.startObj, .key "P-automaton"] ++ .startObj :: es ++ [.endObj])
      = (PSax.run names es (c.onto [(.initial, .object [])])).bind fun u => .ok (u.make.pda, u.aut) := by
    have e1 : parseJAutR false names p ([.startObj, .key "P-automaton"] ++ .startObj :: es ++ [.endObj])
        = (PSax.run names (es ++ [.endObj]) (c.onto [(.initial, .object [])])).bind fun u => .ok (u.make.pda, u.aut) := rfl
    rw [e1, run_append]
    cases hr : PSax.run names es (c.onto [(.initial, .object [])]) with
    | error => rfl
    | undefined => rfl
    | ok u =>
      have := h1 u hr
      simp [PSax.run, PSax.event, PSax.endObj, this, PSax.elementDone, SaxRes.bind, PSax.aut]
  rw [h3]
  have h4 : ISax.run (.startObj :: es ++ rest) { s with phase := wrap (PSax.inside p) }
      = ISax.run (es ++ rest) { s with phase := wrap (c.onto [(.initial, .object [1])]) } := by
    show SaxRes.bind (ISax.event _ _) _ = _
    rw [hw]
    rfl
  rw [h4, h2]
  cases PSax.run names es (c.onto [(.initial, .object [])]) <;> rfl

/-! ## The type -/

/-- The handler after an entry. -/
def TSax.field (t : TSax) (m : List Nat) : TField → SaxRes TSax
  | .names b => if m.contains 1 then .ok { t with names := b, lastKey := .none, stack := [(.initial, .object (m.filter (· ≠ 1)))] } else .error
  | .weight v => if m.contains 2 then match v with
      | .str w => .ok { t with weight := w, lastKey := .none, stack := [(.initial, .object (m.filter (· ≠ 2)))] }
      | .arr [] => .ok { t with array := true, lastKey := .none, stack := [(.initial, .object (m.filter (· ≠ 2)))] }
      | .arr [.name w] => .ok { t with array := true, weight := w, lastKey := .none, stack := [(.initial, .object (m.filter (· ≠ 2)))] }
      | .arr _ => .error
    else .error

theorem run_tfield (s : ISax) (t : TSax) (m : List Nat) (ht : t.stack = [(.initial, .object m)]) (f : TField) (rest : List JEv) :
    ISax.run (f.events ++ rest) { s with phase := .type, type := t }
      = (t.field m f).bind fun t' => ISax.run rest { s with phase := .type, type := t' } := by
  cases f with
  | names b =>
    by_cases h : 1 ∈ m
    · simp [TField.events, ISax.run, ISax.event, TSax.event, TSax.key, ht, TSax.handleKey, h, TSax.field, SaxRes.bind, TSax.elementDone]
    · simp [TField.events, ISax.run, ISax.event, TSax.event, TSax.key, ht, TSax.handleKey, h, TSax.field, SaxRes.bind]
  | weight v =>
    by_cases h : 2 ∈ m
    · rcases v with w | _ | ⟨n | w, _ | ⟨n' | w', l⟩⟩
      all_goals simp [TField.events, TVal.events, JRef.event, ISax.run, ISax.event, TSax.event, TSax.key, ht, TSax.handleKey, h, TSax.field, SaxRes.bind,
        TSax.elementDone, TSax.str, TSax.startArr, TSax.endArr, TSax.uns, TSax.handleIndex]
    · simp [TField.events, ISax.run, ISax.event, TSax.event, TSax.key, ht, TSax.handleKey, h, TSax.field, SaxRes.bind]

theorem run_tend (s : ISax) {ty : ICtx} {r : List (ICtx × JBody)} (hs : s.stack = (ty, .array 1) :: r) (t : TSax)
    (m : List Nat) (ht : t.stack = [(.initial, .object m)]) (rest : List JEv) :
    ISax.run (.endObj :: rest) { s with phase := .type, type := t } = if m = [] then
      ISax.run rest { s with phase := .pda t.kind t.names (Sax.inside t.kind.io), type := { t with stack := [] }, stack := (ty, .array 2) :: r }
    else .error := by
  cases m with
  | nil => simp [ISax.run, ISax.event, TSax.event, TSax.endObj, ht, SaxRes.bind, ISax.callback, hs, ISax.elementDone]; rfl
  | cons x m => simp [ISax.run, ISax.event, TSax.event, TSax.endObj, ht, SaxRes.bind]

/-- Reading the entries of the first element, from some point on. -/
theorem run_tfields (s : ISax) {ty : ICtx} {r : List (ICtx × JBody)} (hs : s.stack = (ty, .array 1) :: r) (ts : List TField) (rest : List JEv) :
    ∃ t, ISax.run (ts.flatMap TField.events ++ .endObj :: rest) { s with phase := .type, type := { stack := [(.initial, .object [1, 2])] } }
      = (SaxRes.of (typeOf ts)).bind fun x =>
          ISax.run rest { s with phase := .pda x.2 x.1 (Sax.inside x.2.io), type := t, stack := (ty, .array 2) :: r } := by
  have hf := fun t m ht f rest => run_tfield s t m ht f rest
  have he := fun t m ht rest => run_tend s hs t m ht rest
  have h0 : ∀ (t : TSax), t.stack = [(.initial, .object [])] → ∀ f, t.field [] f = .error := fun t ht f => by
    cases f <;> simp [TSax.field]
  have e1 : (List.filter (fun x => decide (x ≠ 1)) [1, 2] : List Nat) = [2] := by decide
  have e2 : (List.filter (fun x => decide (x ≠ 2)) [1, 2] : List Nat) = [1] := by decide
  have e3 : (List.filter (fun x => decide (x ≠ 1)) [1] : List Nat) = [] := by decide
  have e4 : (List.filter (fun x => decide (x ≠ 2)) [2] : List Nat) = [] := by decide
  have many : ∀ (t : TSax), t.stack = [(.initial, .object [])] → ∀ f fs, ISax.run ((f :: fs).flatMap TField.events ++ .endObj :: rest) { s with phase := .type, type := t } = .error :=
    fun t ht f fs => by
      rw [List.flatMap_cons, List.append_assoc, hf t _ ht, h0 t ht]
      rfl
  have fin : ∀ t : TSax, t.stack = [(.initial, .object [])] → ∀ (x : Option (Bool × WKind)) (ts : List TField),
      (ts = [] → x = some (t.names, t.kind)) → (∀ d ts', ts = d :: ts' → x = none) →
      ∃ t', ISax.run (ts.flatMap TField.events ++ .endObj :: rest) { s with phase := .type, type := t } = (SaxRes.of x).bind fun x =>
          ISax.run rest { s with phase := .pda x.2 x.1 (Sax.inside x.2.io), type := t', stack := (ty, .array 2) :: r } := fun t ht x ts h1 h2 => by
    cases ts with
    | nil =>
      refine ⟨{ t with stack := [] }, ?_⟩
      rw [List.flatMap_nil, List.nil_append, he _ _ ht, if_pos rfl, h1 rfl]
      rfl
    | cons d ts =>
      rw [h2 d ts rfl]
      exact ⟨{}, many t ht d ts⟩
  have bad : typeOf ts = none → ISax.run (ts.flatMap TField.events ++ .endObj :: rest) { s with phase := .type, type := { stack := [(.initial, .object [1, 2])] } } = .error →
      ∃ t, ISax.run (ts.flatMap TField.events ++ .endObj :: rest) { s with phase := .type, type := { stack := [(.initial, .object [1, 2])] } }
      = (SaxRes.of (typeOf ts)).bind fun x =>
          ISax.run rest { s with phase := .pda x.2 x.1 (Sax.inside x.2.io), type := t, stack := (ty, .array 2) :: r } := fun h1 h2 => by
    rw [h1, h2]
    exact ⟨{}, rfl⟩
  have hcons : ∀ (a : TField) ts, (a :: ts).flatMap TField.events ++ .endObj :: rest = a.events ++ (ts.flatMap TField.events ++ .endObj :: rest) := fun a ts => by
    rw [List.flatMap_cons, List.append_assoc]
  rcases ts with _ | ⟨a, _ | ⟨c, ts⟩⟩
  · refine bad rfl ?_
    rw [List.flatMap_nil, List.nil_append, he _ _ rfl]
    rfl
  · refine bad (by cases a <;> rfl) ?_
    rw [hcons, hf _ _ rfl, List.flatMap_nil, List.nil_append]
    rcases a with b | w | _ | ⟨n | w, _ | ⟨x, l⟩⟩
    all_goals simp only [TSax.field, e1, e2, List.contains_cons, BEq.rfl, Bool.true_or, Bool.or_true, if_true, SaxRes.bind]
    all_goals rw [he _ _ rfl]; rfl
  · rw [hcons, hcons, hf _ _ rfl]
    rcases a with b | w | _ | ⟨n | w, _ | ⟨x, l⟩⟩ <;> rcases c with b' | w' | _ | ⟨n' | w', _ | ⟨x', l'⟩⟩
    all_goals simp only [TSax.field, e1, e2, List.contains_cons, BEq.rfl, Bool.true_or, Bool.or_true, if_true, SaxRes.bind]
    all_goals try rw [hf _ _ rfl]
    all_goals try simp only [TSax.field, e3, e4, List.contains_cons, BEq.rfl, Bool.true_or, Bool.or_true, if_true, SaxRes.bind]
    all_goals first
      | exact ⟨{}, rfl⟩
      | (cases ts <;> exact ⟨{}, rfl⟩)
      | (refine fin _ rfl _ ts ?_ ?_
         · rintro rfl
           simp [typeOf, TVal.kind, TSax.kind, scalarKind, vectorKind]
         · rintro d ts' rfl
           rfl)

theorem inst_tail (k : WKind) (names : Bool) (t : TSax) {p a b : List JEv} (hp : IsObject p) (ha : IsObject a) (hb : IsObject b) :
    (ISax.run (p ++ (a ++ (b ++ [.endArr, .endObj]))) { phase := .pda k names (Sax.inside k.io), type := t, stack := [(.instance, .array 2), (.initial, .object [])], lastKey := true }).bind
      ISax.result = (SaxRes.of (parsePda k.io names ([.startObj, .key "pda"] ++ p ++ [.endObj]))).bind fun q =>
        (parseJAutR false names q ([.startObj, .key "P-automaton"] ++ a ++ [.endObj])).bind fun y =>
        (parseJAutR false names y.1 ([.startObj, .key "P-automaton"] ++ b ++ [.endObj])).bind fun z =>
        .ok ⟨k, names, z.1, y.2, z.2⟩ := by
  let s1 : ISax := { stack := [(.instance, .array 1), (.initial, .object [])], lastKey := true }
  let s2 : ISax := { s1 with type := t, stack := [(.instance, .array 2), (.initial, .object [])] }
  have h2 := inst_pda k names s2 (a ++ (b ++ [.endArr, .endObj])) rfl hp
  rw [show ISax.run (p ++ (a ++ (b ++ [.endArr, .endObj]))) { phase := .pda k names (Sax.inside k.io), type := t, stack := [(.instance, .array 2), (.initial, .object [])], lastKey := true }
    = ISax.run (p ++ (a ++ (b ++ [.endArr, .endObj]))) { s2 with phase := .pda k names (Sax.inside k.io) } from rfl, h2]
  cases parsePda k.io names ([.startObj, .key "pda"] ++ p ++ [.endObj]) with
  | none => rfl
  | some q =>
    simp only [SaxRes.of, SaxRes.bind]
    let s3 : ISax := { s2 with stack := [(.instance, .array 3), (.initial, .object [])] }
    have h3 := inst_aut names s3 (b ++ [.endArr, .endObj]) (fun u : PSax k.Carrier => .first k names u)
      (fun q x => { s3 with stack := [(.instance, .array 4), (.initial, .object [])], phase := .second k names x (PSax.inside q) })
      (fun u e => rfl) (fun u => rfl) q ha
    rw [show ISax.run (a ++ (b ++ [.endArr, .endObj])) { s2 with stack := [(.instance, .array 3), (.initial, .object [])], phase := .first k names (PSax.inside q) }
      = ISax.run (a ++ (b ++ [.endArr, .endObj])) { s3 with phase := .first k names (PSax.inside q) } from rfl, h3]
    cases parseJAutR false names q ([.startObj, .key "P-automaton"] ++ a ++ [.endObj]) with
    | error => rfl
    | undefined => rfl
    | ok y =>
      simp only [SaxRes.bind]
      let s4 : ISax := { s2 with stack := [(.instance, .array 4), (.initial, .object [])] }
      have h4 := inst_aut names s4 [.endArr, .endObj] (fun u : PSax k.Carrier => .second k names y.2 u)
        (fun q x => { s4 with stack := [(.instance, .array 5), (.initial, .object [])], phase := .self (some ⟨k, names, q, y.2, x⟩) })
        (fun u e => rfl) (fun u => rfl) y.1 hb
      rw [show ISax.run (b ++ [.endArr, .endObj]) { s3 with stack := [(.instance, .array 4), (.initial, .object [])], phase := .second k names y.2 (PSax.inside y.1) }
        = ISax.run (b ++ [.endArr, .endObj]) { s4 with phase := .second k names y.2 (PSax.inside y.1) } from rfl, h4]
      cases parseJAutR false names y.1 ([.startObj, .key "P-automaton"] ++ b ++ [.endObj]) with
      | error => rfl
      | undefined => rfl
      | ok z => rfl

theorem parse_inst (ts : List TField) {p a b : List JEv} (hp : IsObject p) (ha : IsObject a) (hb : IsObject b) :
    parseInstDoc (instEvents (typeEvents ts) p a b)
      = (SaxRes.of (typeOf ts)).bind fun x =>
        (SaxRes.of (parsePda x.2.io x.1 ([.startObj, .key "pda"] ++ p ++ [.endObj]))).bind fun q =>
        (parseJAutR false x.1 q ([.startObj, .key "P-automaton"] ++ a ++ [.endObj])).bind fun y =>
        (parseJAutR false x.1 y.1 ([.startObj, .key "P-automaton"] ++ b ++ [.endObj])).bind fun z =>
        .ok ⟨x.2, x.1, z.1, y.2, z.2⟩ := by
  let s1 : ISax := { stack := [(.instance, .array 1), (.initial, .object [])], lastKey := true }
  obtain ⟨t, h1⟩ := run_tfields s1 rfl ts (p ++ (a ++ (b ++ [.endArr, .endObj])))
  have h0 : ISax.run (instEvents (typeEvents ts) p a b) {} = ISax.run (ts.flatMap TField.events ++ .endObj :: (p ++ (a ++ (b ++ [.endArr, .endObj]))))
      { s1 with phase := .type, type := { stack := [(.initial, .object [1, 2])] } } := by
    have : instEvents (typeEvents ts) p a b = [.startObj, .key "instance", .startArr, .startObj] ++
        (ts.flatMap TField.events ++ .endObj :: (p ++ (a ++ (b ++ [.endArr, .endObj])))) := by
      simp [instEvents, typeEvents]
    rw [this]
    rfl
  unfold parseInstDoc
  rw [h0, h1]
  cases typeOf ts with
  | none => rfl
  | some x =>
    obtain ⟨names, k⟩ := x
    simp only [SaxRes.of, SaxRes.bind]
    exact inst_tail k names t hp ha hb

end Verif
