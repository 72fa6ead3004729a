import Verif.Spec.JsonStream

/-! # C82: the program writes JSON -/

namespace Verif.Props

open Verif JStream

/-! ## Layout -/

/-- What the calls for the members write at depth `n`. -/
def layout (n : Nat) (b : Bool) : JTree → List Char
  | .leaf _ => []
  | .empty => []
  | .obj k (.leaf v) r => (if b then ',' else '{') :: '\n' :: (spaces n ++ ('"' :: (k.toList ++ '"' :: ' ' :: ':' :: ' ' :: (v ++ layout n true r))))
  | .obj k .empty r => (if b then ',' else '{') :: '\n' :: (spaces n ++ ('"' :: (k.toList ++ '"' :: ' ' :: ':' :: ' ' :: '{' :: '}' :: layout n true r)))
  | .obj k (.obj k' t' r') r => (if b then ',' else '{') :: '\n' :: (spaces n ++ ('"' :: (k.toList ++ '"' :: ' ' :: ':' :: ' ' ::
      (layout (n + 1) false (.obj k' t' r') ++ '\n' :: (spaces n ++ '}' :: layout n true r)))))

/-- The depth at which the next member is written. -/
def level (s : JStream) : Nat := if s.started then s.indent else s.indent + 1

theorem calls_append (s : JStream) (cs ds : List JCall) : s.calls (cs ++ ds) = (s.calls cs).bind fun s => s.calls ds := by
  unfold JStream.calls
  rw [List.foldlM_append]
  rfl

theorem calls_cons (s : JStream) (c : JCall) (cs : List JCall) : s.calls (c :: cs) = (s.call c).bind fun s => s.calls cs := rfl

theorem startEntry_eq (s : JStream) (k : String) : s.startEntry k =
    ⟨true, level s, s.out ++ ((if s.started then ',' else '{') :: '\n' :: (spaces (level s) ++ ('"' :: (k.toList ++ ['"', ' ', ':', ' ']))))⟩ := by
  unfold startEntry level
  cases s.started <;> simp

theorem run_members (t : JTree) (ho : t.IsObj) (hp : t.Proper) (s : JStream) :
    s.calls t.calls = some (if t = .empty then s else ⟨true, level s, s.out ++ layout (level s) s.started t⟩) := by
  induction t generalizing s with
  | leaf v => exact absurd ho id
  | empty => rfl
  | obj k t r iht ihr =>
    obtain ⟨h1, h2, h3⟩ := hp
    rw [if_neg (by simp)]
    have hr : ∀ o : List Char, (⟨true, level s, o⟩ : JStream).calls r.calls = some ⟨true, level s, o ++ layout (level s) true r⟩ := by
      intro o
      rw [ihr h2 h3]
      by_cases he : r = .empty
      · rw [if_pos he, he]; simp [layout]
      · rw [if_neg he]; rfl
    cases t with
    | leaf v =>
      rw [JTree.calls, calls_cons]
      simp only [call, entry, startEntry_eq, Option.bind_some]
      rw [hr]
      simp [layout]
    | empty =>
      rw [JTree.calls, calls_cons]
      · simp only [call, beginObject, startEntry_eq, Option.bind_some, JTree.calls, List.nil_append]
        rw [calls_cons]
        simp only [call, endObject, Bool.false_eq_true, if_false, Option.bind_some]
        rw [hr]
        simp [layout]
      · intro v; simp
    | obj k' t' r' =>
      have e : ∀ (o : List Char), (⟨false, level s, o⟩ : JStream).calls (JTree.obj k' t' r').calls = some ⟨true, level s + 1, o ++ layout (level s + 1) false (.obj k' t' r')⟩ := by
        intro o
        rw [iht (by exact h1.2.1) h1, if_neg (by simp)]
        rfl
      rw [JTree.calls, calls_cons]
      · simp only [call, beginObject, startEntry_eq, Option.bind_some]
        rw [calls_append, e, Option.bind_some, calls_cons]
        simp only [call, endObject, if_true, if_neg (Nat.succ_ne_zero _), Option.bind_some, Nat.add_sub_cancel]
        rw [hr]
        simp [layout]
      · intro v; simp

/-! ## The layout is JSON -/

theorem blank_spaces (n : Nat) : JBlank (spaces n) := fun c hc => .inl (List.eq_of_mem_replicate hc)

theorem blank_line (n : Nat) : JBlank ('\n' :: spaces n) := by
  intro c hc
  rcases List.mem_cons.1 hc with rfl | hc
  · exact .inr (.inl rfl)
  · exact blank_spaces n c hc

theorem blank_one : JBlank [' '] := by
  intro c hc
  exact .inl (List.mem_singleton.1 hc)

theorem blank_none : JBlank [] := by
  intro c hc
  cases hc

theorem layout_text (t : JTree) (hp : t.Proper) (hk : t.PlainKeys) (n : Nat) (b : Bool) : (∃ v, t = .leaf v) ∨ t = .empty ∨
    ∃ m, layout n b t = (if b then ',' else '{') :: m ∧ ∀ w, JBlank w → JMembers t (m ++ w) := by
  induction t generalizing n b with
  | leaf v => exact .inl ⟨v, rfl⟩
  | empty => exact .inr (.inl rfl)
  | obj k t r iht ihr =>
    obtain ⟨h1, h2, h3⟩ := hp
    obtain ⟨k1, k2, k3⟩ := hk
    refine .inr (.inr ?_)
    -- the value, whatever follows it
    have key : ∀ v, JText t v → ∃ m, '\n' :: (spaces n ++ ('"' :: (k.toList ++ '"' :: ' ' :: ':' :: ' ' :: (v ++ layout n true r)))) = m ∧
        ∀ w, JBlank w → JMembers (.obj k t r) (m ++ w) := by
      intro v hv
      refine ⟨_, rfl, ?_⟩
      intro w hw
      rcases ihr h3 k3 n true with ⟨v', rfl⟩ | rfl | ⟨m, e, hm⟩
      · exact absurd h2 id
      · have := JMembers.last (k := k) (blank_line n) ⟨rfl, k1⟩ blank_one blank_one hv hw
        have e : '\n' :: (spaces n ++ ('"' :: (k.toList ++ '"' :: ' ' :: ':' :: ' ' :: (v ++ layout n true .empty)))) ++ w =
          ('\n' :: spaces n) ++ (('"' :: k.toList ++ ['"']) ++ ([' '] ++ ':' :: ([' '] ++ (v ++ w)))) := by simp [layout]
        rw [e]
        exact this
      · cases r with
        | leaf v' => exact absurd h2 id
        | empty => simp [layout] at e
        | obj k' t' r' =>
          have := JMembers.more (k := k) (blank_line n) ⟨rfl, k1⟩ blank_one blank_one hv blank_none (hm w hw)
          have e' : '\n' :: (spaces n ++ ('"' :: (k.toList ++ '"' :: ' ' :: ':' :: ' ' :: (v ++ layout n true (.obj k' t' r'))))) ++ w =
            ('\n' :: spaces n) ++ (('"' :: k.toList ++ ['"']) ++ ([' '] ++ ':' :: ([' '] ++ (v ++ ([] ++ ',' :: (m ++ w)))))) := by rw [e]; simp
          rw [e']
          exact this
    cases t with
    | leaf v =>
      obtain ⟨m, e, hm⟩ := key v (.leaf v)
      exact ⟨m, by rw [← e]; rfl, hm⟩
    | empty =>
      obtain ⟨m, e, hm⟩ := key _ (.empty blank_none)
      exact ⟨m, by rw [← e]; rfl, hm⟩
    | obj k' t' r' =>
      rcases iht h1 k2 (n + 1) false with ⟨v, h⟩ | h | ⟨m', e', hm'⟩
      · cases h
      · cases h
      · obtain ⟨m, e, hm⟩ := key _ (.obj (hm' _ (blank_line n)))
        refine ⟨m, ?_, hm⟩
        rw [← e, layout, e']
        simp

/-! ## Closing -/

/-- The number of rounds that `close` needs. -/
def rounds (s : JStream) : Nat := 2 * s.indent + if s.started then 0 else 1

theorem closeLoop_fuel (n m : Nat) (s : JStream) (hn : rounds s ≤ n) (hm : rounds s ≤ m) : closeLoop n s = closeLoop m s := by
  induction n generalizing m s with
  | zero =>
    have hi : s.indent = 0 := by unfold rounds at hn; omega
    cases m with
    | zero => rfl
    | succ m => rw [closeLoop, closeLoop, hi, if_neg (by omega)]
  | succ n ih =>
    by_cases hi : 0 < s.indent
    · cases m with
      | zero => unfold rounds at hm; omega
      | succ m =>
        rw [closeLoop, closeLoop, if_pos hi, if_pos hi]
        cases he : s.endObject with
        | none => rfl
        | some s' =>
          have : rounds s' + 1 ≤ rounds s := by
            unfold endObject at he
            unfold rounds
            split at he
            · rename_i h1
              rw [if_neg (by omega)] at he
              cases he
              simp [h1]; omega
            · rename_i h1
              cases he
              simp [h1]
          exact ih m s' (by omega) (by omega)
    · rw [closeLoop, if_neg hi]
      cases m with
      | zero => rfl
      | succ m => rw [closeLoop, if_neg hi]

theorem close_end {s s' : JStream} (hi : 0 < s.indent) (he : s.endObject = some s') : s.close = s'.close := by
  unfold close
  have : closeLoop (2 * s.indent + 1) s = closeLoop (2 * s.indent) s' := by rw [closeLoop, if_pos hi, he]
  have hr : rounds s' ≤ 2 * s.indent := by
    unfold endObject at he
    unfold rounds
    split at he
    · rename_i h1
      rw [if_neg (by omega)] at he
      cases he
      simp [h1]; omega
    · rename_i h1
      cases he
      simp
  rw [this, closeLoop_fuel _ (2 * s'.indent + 1) s' hr (by unfold rounds; split <;> omega)]

theorem indent_end {s s' : JStream} (he : s.endObject = some s') : s'.indent ≤ s.indent := by
  unfold endObject at he
  split at he
  · split at he
    · cases he
    · cases he; simp
  · cases he; simp

theorem close_ends (k : Nat) : ∀ {s s' : JStream}, s.calls (List.replicate k .endObject) = some s' → 0 < s'.indent → s.close = s'.close ∧ s'.indent ≤ s.indent := by
  induction k with
  | zero =>
    intro s s' h _
    cases h
    exact ⟨rfl, Nat.le_refl _⟩
  | succ k ih =>
    intro s s' h hi
    rw [List.replicate_succ, calls_cons] at h
    obtain ⟨s1, h1, h2⟩ := Option.bind_eq_some_iff.1 h
    obtain ⟨h3, h4⟩ := ih h2 hi
    have h5 := indent_end h1
    exact ⟨(close_end (by omega) h1).trans h3, by omega⟩

theorem call_expand (s : JStream) (c : JCall) : s.call c = s.calls c.expand := by
  cases c with
  | entry k v => rfl
  | beginObject k => rfl
  | endObject =>
    show s.endObject = (s.endObject).bind fun s => some s
    cases s.endObject <;> rfl
  | entryObject k v =>
    cases v with
    | inl v => rfl
    | inr items =>
      have : ∀ (l : List (String × List Char)) (s : JStream), s.calls (l.map fun x => .entry x.1 x.2) = some (l.foldl (fun s x => s.entry x.1 x.2) s) := by
        intro l
        induction l with
        | nil => intro s; rfl
        | cons x l ih =>
          intro s
          rw [List.map_cons, calls_cons]
          exact ih _
      rw [JCall.expand, calls_cons]
      show JStream.endObject (List.foldl _ _ _) = (s.beginObject k).calls _
      rw [calls_append, this, Option.bind_some]
      show _ = (JStream.endObject _).bind fun s => some s
      cases (JStream.endObject _) <;> rfl

theorem calls_expand (cs : List JCall) (s : JStream) : s.calls cs = s.calls (cs.flatMap JCall.expand) := by
  induction cs generalizing s with
  | nil => rfl
  | cons c cs ih =>
    rw [calls_cons, List.flatMap_cons, calls_append, ← call_expand]
    cases s.call c with
    | none => rfl
    | some s => exact ih s

/-- C82: calls that write the members of an object, where some objects may not have been ended, write its JSON text once the stream is closed. The
stream can then be used for another object. -/
theorem c82_stream {f : JTree} (ho : f.IsObj) (hp : f.Proper) (hk : f.PlainKeys) {cs : List JCall} {k : Nat} (hc : cs ≠ [])
    (h : f.calls = cs.flatMap JCall.expand ++ List.replicate k .endObject) :
    ∃ s, JStream.calls {} cs = some s ∧ JText f s.close.out ∧ s.close.started = false ∧ s.close.indent = 0 := by
  have hne : f ≠ .empty := by
    rintro rfl
    obtain ⟨c, cs, rfl⟩ := List.exists_cons_of_ne_nil hc
    have h' := congrArg List.length h
    rw [JTree.calls, List.flatMap_cons] at h'
    cases c with
    | entryObject k v => cases v <;> simp [JCall.expand] at h'
    | _ => simp [JCall.expand] at h'
  have hr := run_members f ho hp {}
  rw [if_neg hne, h, calls_append] at hr
  obtain ⟨s, h1, h2⟩ := Option.bind_eq_some_iff.1 hr
  rw [← calls_expand] at h1
  refine ⟨s, h1, ?_⟩
  have h3 := (close_ends k h2 Nat.one_pos).1
  rw [h3]
  rcases layout_text f hp hk 1 false with ⟨v, rfl⟩ | rfl | ⟨m, e, hm⟩
  · exact absurd ho id
  · exact absurd rfl hne
  · have hl : level {} = 1 := rfl
    rw [hl, e]
    refine ⟨?_, rfl, rfl⟩
    have he : (JStream.mk true 1 ([] ++ (if false = true then ',' else '{') :: m)).close.out = '{' :: (m ++ ['\n'] ++ ['}']) := by
      simp [close, closeLoop, endObject, spaces]
    show JText f (JStream.mk true 1 _).close.out
    rw [he]
    cases f with
    | leaf v => exact absurd ho id
    | empty => exact absurd rfl hne
    | obj k t r => exact .obj (hm ['\n'] (by intro c hc; exact .inr (.inl (List.mem_singleton.1 hc))))

theorem calls_obj (k : String) {t : JTree} (ht : t.IsObj) (r : JTree) : (JTree.obj k t r).calls = .beginObject k :: (t.calls ++ .endObject :: r.calls) := by
  cases t with
  | leaf v => exact absurd ht id
  | empty => rfl
  | obj k' t' r' => rfl

/-- C82: wherever the calls for an object stop, they are the calls of an object up to calls that end objects. So what has been written can always be
closed to the JSON text of the entries so far. -/
theorem c82_prefix {f : JTree} (ho : f.IsObj) (hp : f.Proper) (hk : f.PlainKeys) {cs ds : List JCall} (h : f.calls = cs ++ ds) :
    ∃ (g : JTree) (k : Nat), g.IsObj ∧ g.Proper ∧ g.PlainKeys ∧ g.calls = cs ++ List.replicate k .endObject := by
  induction f generalizing cs ds with
  | leaf v => exact absurd ho id
  | empty =>
    have : cs = [] := by
      rw [JTree.calls] at h
      exact (List.append_eq_nil_iff.1 h.symm).1
    exact ⟨.empty, 0, trivial, trivial, trivial, by rw [this]; rfl⟩
  | obj k t r iht ihr =>
    obtain ⟨h1, h2, h3⟩ := hp
    obtain ⟨k1, k2, k3⟩ := hk
    cases cs with
    | nil => exact ⟨.empty, 0, trivial, trivial, trivial, rfl⟩
    | cons c cs =>
      by_cases hl : ∃ v, t = .leaf v
      · obtain ⟨v, rfl⟩ := hl
        rw [JTree.calls, List.cons_append] at h
        injection h with h4 h5
        obtain ⟨g, j, g1, g2, g3, g4⟩ := ihr h2 h3 k3 h5
        refine ⟨.obj k (.leaf v) g, j, g1, ⟨trivial, g1, g2⟩, ⟨k1, trivial, g3⟩, ?_⟩
        rw [JTree.calls, g4, h4]
        rfl
      · have ht : t.IsObj := by
          cases t with
          | leaf v => exact absurd ⟨v, rfl⟩ hl
          | empty => trivial
          | obj k' t' r' => exact h1.2.1
        rw [calls_obj k ht, List.cons_append] at h
        injection h with h4 h5
        rcases List.append_eq_append_iff.1 h5 with ⟨as, e1, e2⟩ | ⟨as, e1, e2⟩
        · cases as with
          | nil =>
            refine ⟨.obj k t .empty, 1, trivial, ⟨h1, trivial, trivial⟩, ⟨k1, k2, trivial⟩, ?_⟩
            rw [calls_obj k ht, e1, h4]
            simp [JTree.calls]
          | cons a as =>
            rw [List.cons_append] at e2
            injection e2 with e3 e4
            obtain ⟨g, j, g1, g2, g3, g4⟩ := ihr h2 h3 k3 e4
            refine ⟨.obj k t g, j, g1, ⟨h1, g1, g2⟩, ⟨k1, k2, g3⟩, ?_⟩
            rw [calls_obj k ht, e1, g4, h4, e3]
            simp
        · obtain ⟨g, j, g1, g2, g3, g4⟩ := iht ht h1 k2 e1
          refine ⟨.obj k g .empty, j + 1, trivial, ⟨g2, trivial, trivial⟩, ⟨k1, g3, trivial⟩, ?_⟩
          rw [calls_obj k g1, g4, h4, List.replicate_succ']
          simp [JTree.calls]

/-- C82: before it is closed, what has been written is not an object, at least if the last value does not end with a brace. -/
theorem c82_open {cs : List JCall} {k : String} {v : List Char} {c : Char} {s : JStream} (h : JStream.calls {} (cs ++ [.entry k (v ++ [c])]) = some s)
    (hc : c ≠ '}') {f : JTree} (hf : f.IsObj) : ¬ JText f s.out := by
  rw [calls_append] at h
  obtain ⟨s1, -, h2⟩ := Option.bind_eq_some_iff.1 h
  have h3 : s.out.getLast? = some c := by
    rw [calls_cons] at h2
    simp only [call, entry, Option.bind_some] at h2
    cases h2
    simp
  intro hj
  have : s.out.getLast? = some '}' := by
    clear h2 h3 h
    generalize s.out = o at hj
    cases hj with
    | leaf v => exact absurd hf id
    | empty hw => simp [List.getLast?_cons]
    | obj hm => simp [List.getLast?_cons]
  rw [h3] at this
  exact hc (Option.some.inj this)

/-! ## The report -/

theorem ofEntries_obj (l : List (String × List Char)) : (JTree.ofEntries l).IsObj := by
  induction l with
  | nil => trivial
  | cons x l ih => exact ih

theorem ofEntries_proper (l : List (String × List Char)) : (JTree.ofEntries l).Proper := by
  induction l with
  | nil => trivial
  | cons x l ih => exact ⟨trivial, ofEntries_obj l, ih⟩

theorem ofEntries_calls (l : List (String × List Char)) : (JTree.ofEntries l).calls = l.map fun x => .entry x.1 x.2 := by
  induction l with
  | nil => rfl
  | cons x l ih =>
    show JTree.calls (.obj x.1 (.leaf x.2) (JTree.ofEntries l)) = _
    rw [JTree.calls, ih]
    rfl

/-- The entries of a report, in their order. -/
def reportEntries {U : Type} (dump : OutVal → List Char) (num : U → List Char) (time : List Char) (r : WReport String U) : List (String × List Char) :=
  [("engine", dump (.str r.engine))] ++
  (match r.weight with
    | none => []
    | some (.value x) => [("weight", dump (.num (num x)))]
    | some (.text s) => [("weight", dump (.str s))]) ++
  [("rtime", dump (.num time)), ("result", dump (.bool r.result)), ("trace", dump (if r.trace = [] then .null else .trace r.trace))]

/-- C82, the output of the program: the JSON text of an object with the entries of the report in this order; the time of parsing comes first, unless
`--silent` is given. -/
theorem c82_output {U : Type} (dump : OutVal → List Char) (num : U → List Char) (silent : Bool) (parsing time : List Char) (r : WReport String U) :
    ∃ out, runOutput dump num silent parsing time (some r) = some out ∧
      JText (JTree.ofEntries ((if silent then [] else [("parsing-duration", dump (.num parsing))]) ++ reportEntries dump num time r)) out := by
  have key : ∀ l : List (String × List Char), l ≠ [] → (∀ x ∈ l, x.1 ∈ ["parsing-duration", "engine", "weight", "rtime", "result", "trace"]) →
      ∃ s, JStream.calls {} (l.map fun x => .entry x.1 x.2) = some s ∧ JText (JTree.ofEntries l) s.close.out := by
    intro l hne hl
    have hk : (JTree.ofEntries l).PlainKeys := by
      clear hne
      induction l with
      | nil => trivial
      | cons x l ih =>
        refine ⟨?_, trivial, ih fun y hy => hl y (List.mem_cons_of_mem _ hy)⟩
        have : ∀ k ∈ ["parsing-duration", "engine", "weight", "rtime", "result", "trace"], ∀ c ∈ String.toList k, c ≠ '"' ∧ c ≠ '\\' ∧ 32 ≤ c.toNat := by decide
        exact this _ (hl x (List.mem_cons_self ..))
    have hc : (l.map fun x => JCall.entry x.1 x.2) ≠ [] := by simpa using hne
    obtain ⟨s, h1, h2, -⟩ := c82_stream (ofEntries_obj l) (ofEntries_proper l) hk hc (k := 0) (by rw [ofEntries_calls, List.flatMap_map]; simp [JCall.expand, List.map_eq_flatMap])
    exact ⟨s, h1, h2⟩
  have he : ((if silent then [] else [JCall.entry "parsing-duration" (dump (.num parsing))]) ++ reportCalls dump num time r) =
      (((if silent then [] else [("parsing-duration", dump (.num parsing))]) ++ reportEntries dump num time r).map fun x => JCall.entry x.1 x.2) := by
    unfold reportCalls reportEntries
    cases silent <;> cases r.weight with
    | none => rfl
    | some w => cases w <;> rfl
  have hm : ∀ x ∈ ((if silent then [] else [("parsing-duration", dump (.num parsing))]) ++ reportEntries dump num time r),
      x.1 ∈ ["parsing-duration", "engine", "weight", "rtime", "result", "trace"] := by
    unfold reportEntries
    intro x hx
    cases silent <;> cases r.weight with
    | none => simp at hx; simp; grind
    | some w => cases w <;> (simp at hx; simp; grind)
  obtain ⟨s, h1, h2⟩ := key _ (by unfold reportEntries; simp) hm
  refine ⟨s.close.out, ?_, h2⟩
  unfold runOutput
  simp only []
  rw [he, h1]
  rfl

/-- C82: without an engine the object has at most the time of parsing. With `--silent` nothing at all is written, which is not JSON. -/
theorem c82_nothing {U : Type} (dump : OutVal → List Char) (num : U → List Char) (parsing time : List Char) :
    (∃ out, runOutput dump num false parsing time none = some out ∧ JText (JTree.ofEntries [("parsing-duration", dump (.num parsing))]) out) ∧
    runOutput dump num true parsing time none = some [] ∧ ∀ f : JTree, f.IsObj → ¬ JText f [] := by
  refine ⟨?_, rfl, ?_⟩
  · obtain ⟨s, h1, h2, -⟩ := c82_stream (f := JTree.ofEntries [("parsing-duration", dump (.num parsing))]) (k := 0) trivial ⟨trivial, trivial, trivial⟩
      ⟨show ∀ c ∈ "parsing-duration".toList, _ from by decide, trivial, trivial⟩ (cs := [.entry "parsing-duration" (dump (.num parsing))]) (by simp) rfl
    refine ⟨s.close.out, ?_, h2⟩
    unfold runOutput
    simp only [Bool.false_eq_true, if_false, List.append_nil]
    rw [h1]
    rfl
  · intro f hf h
    cases h with
    | leaf => exact hf

/-! ## Cases -/

/-- An object in an object that has not been ended. -/
example : JText (.obj "a" (.leaf ['1']) (.obj "b" (.obj "c" (.leaf ['2']) .empty) .empty))
    "{\n    \"a\" : 1,\n    \"b\" : {\n        \"c\" : 2\n    }\n}".toList := by
  obtain ⟨s, h1, h2, -⟩ := c82_stream (f := .obj "a" (.leaf ['1']) (.obj "b" (.obj "c" (.leaf ['2']) .empty) .empty)) (k := 1) trivial
    ⟨trivial, trivial, ⟨trivial, trivial, trivial⟩, trivial, trivial⟩ ⟨by decide, trivial, by decide, ⟨by decide, trivial, trivial⟩, trivial⟩
    (cs := [.entry "a" ['1'], .beginObject "b", .entry "c" ['2']]) (by simp) rfl
  have h3 : ((JStream.calls {} [.entry "a" ['1'], .beginObject "b", .entry "c" ['2']]).map fun s => s.close.out) =
      some "{\n    \"a\" : 1,\n    \"b\" : {\n        \"c\" : 2\n    }\n}".toList := by decide +kernel
  rw [h1] at h3
  rw [← Option.some.inj h3]
  exact h2

/-- The same with `entry_object`, and an empty object. -/
example : ((JStream.calls {} [.entryObject "b" (.inr [("c", ['2'])]), .beginObject "d", .endObject]).map fun s => s.close.out) =
    some "{\n    \"b\" : {\n        \"c\" : 2\n    },\n    \"d\" : {}\n}".toList := by decide +kernel

/-- Ending an object that has not been begun: `_indent` falls below zero. -/
theorem c82_end_twice : JStream.calls {} [.entry "a" ['1'], .endObject, .endObject] = none := by decide +kernel

end Verif.Props
