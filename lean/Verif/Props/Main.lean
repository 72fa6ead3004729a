import Verif.Model.Main
import Verif.Props.FilesWeighted
import Verif.Props.InstancePrint
import Verif.Props.JsonStream

/-!
# C85: the program as a whole
-/

namespace Verif.Props

open Verif

/-! ## Specification -/

/-- The options agree, except for those that say what is read. -/
structure SameSolve (o o' : ProgOpts) : Prop where
  help : o'.help = o.help
  version : o'.version = o.version
  engine : o'.engine = o.engine
  trace : o'.trace = o.trace
  silent : o'.silent = o.silent
  printPda : o'.printPda = o.printPda
  printInstance : o'.printInstance = o.printInstance

/-- Two runs end alike, write the same on standard output and do the same to every file. -/
def SameRun (w w' : World) (r r' : ProgRun) : Prop :=
  r'.ending = r.ending ∧ r'.out = r.out ∧ ∀ f, r'.files f = r.files f ∨ (r.files f = w.files f ∧ r'.files f = w'.files f)

/-- The files that are printed to can be opened in both worlds or in none. -/
def SameWritable (w w' : World) (o : ProgOpts) : Prop :=
  w'.writable o.printPda = w.writable o.printPda ∧ w'.writable o.printInstance = w.writable o.printInstance

/-- Separate files are read: there is no `--input`, and the three files are given. -/
structure Separate (o : ProgOpts) : Prop where
  input : o.input = ""
  pda : o.pda ≠ ""
  initial : o.initial ≠ ""
  final : o.final ≠ ""

/-- Neither `--help` nor `--version`. -/
def Works (o : ProgOpts) : Prop := o.help = false ∧ o.version = false

/-- All files that are to be printed can be opened. -/
def CanPrint (w : World) (o : ProgOpts) : Prop :=
  (o.printPda ≠ "" → w.writable o.printPda = true) ∧ (o.printInstance ≠ "" → w.writable o.printInstance = true)

/-! ## What is read -/

theorem read_sep {o : ProgOpts} (hs : Separate o) (e : ProgEnv) (w : World) : readInstance e w o = readSeparate e w o := by
  unfold readInstance
  rw [if_pos ⟨hs.input, hs.pda, hs.initial, hs.final⟩]

theorem read_input {o : ProgOpts} (hne : o.input ≠ "") (e : ProgEnv) (w : World) :
    readInstance e w o = readStream e o (if o.input = "-" then some w.stdin else w.files o.input) := by
  unfold readInstance
  rw [if_neg (fun h : o.input = "" ∧ _ => hne h.1)]
  congr 1
  by_cases h : o.input = "-"
  · rw [if_pos (Or.inr h), if_pos h]
  · rw [if_neg (fun k : o.input = "" ∨ o.input = "-" => k.elim hne h), if_neg h]

theorem read_stdin {o : ProgOpts} (hi : o.input = "") (hm : o.pda = "" ∨ o.initial = "" ∨ o.final = "") (e : ProgEnv) (w : World) :
    readInstance e w o = readStream e o (some w.stdin) := by
  unfold readInstance
  rw [if_neg (fun h : o.input = "" ∧ o.pda ≠ "" ∧ o.initial ≠ "" ∧ o.final ≠ "" => hm.elim h.2.1 fun k => k.elim h.2.2.1 h.2.2.2), if_pos (Or.inl hi)]

theorem doOutput_congr {e : ProgEnv} {w w' : World} {o o' : ProgOpts} (hs : SameSolve o o') (hw : SameWritable w w' o) (i : Inst) :
    (doOutput e w' o' i).2 = (doOutput e w o i).2 ∧ ∀ f, (doOutput e w' o' i).1 f = (doOutput e w o i).1 f ∨
      ((doOutput e w o i).1 f = w.files f ∧ (doOutput e w' o' i).1 f = w'.files f) := by
  obtain ⟨h1, h2⟩ := hw
  unfold doOutput writeFile
  rw [hs.printPda, hs.printInstance, h1, h2]
  by_cases a1 : o.printPda = "" <;> by_cases a2 : o.printInstance = "" <;> cases a3 : w.writable o.printPda <;>
    cases a4 : w.writable o.printInstance <;> simp [a1, a2] <;> grind

theorem progVerify_congr {e : ProgEnv} {o o' : ProgOpts} (hs : SameSolve o o') (i : Inst) : progVerify e o' i = progVerify e o i := by
  unfold progVerify
  rw [hs.trace, hs.engine]

theorem prog_congr {e : ProgEnv} {w w' : World} {o o' : ProgOpts} (hs : SameSolve o o') (hw : SameWritable w w' o)
    (hr : readInstance e w' o' = readInstance e w o) : SameRun w w' (prog e w o) (prog e w' o') := by
  unfold prog
  rw [hs.help, hs.version, hr]
  split
  · exact ⟨rfl, rfl, fun f => .inr ⟨rfl, rfl⟩⟩
  split
  · exact ⟨rfl, rfl, fun f => .inr ⟨rfl, rfl⟩⟩
  cases readInstance e w o with
  | error => exact ⟨rfl, rfl, fun f => .inr ⟨rfl, rfl⟩⟩
  | undefined => exact ⟨rfl, rfl, fun f => .inr ⟨rfl, rfl⟩⟩
  | ok i =>
    obtain ⟨h1, h2⟩ := doOutput_congr (e := e) hs hw i
    have h3 := progVerify_congr (e := e) hs i
    have h4 : firstCalls e o' = firstCalls e o := by unfold firstCalls; rw [hs.silent]
    simp only []
    rw [h1, h4]
    split
    · unfold finish
      rw [h3, hs.silent]
      cases progVerify e o i with
      | none => exact ⟨rfl, rfl, h2⟩
      | some v => cases v <;> exact ⟨rfl, rfl, h2⟩
    · exact ⟨rfl, rfl, h2⟩

/-- C85, sources: with `--input`, the run depends on that file (or standard input) only. The options for separate files are ignored. -/
theorem c85_input {e : ProgEnv} {w w' : World} {o o' : ProgOpts} (hs : SameSolve o o') (hw : SameWritable w w' o) (hne : o.input ≠ "")
    (hi : o'.input = o.input) (hm : o'.msgpack = o.msgpack) (ht : if o.input = "-" then w'.stdin = w.stdin else w'.files o.input = w.files o.input) :
    SameRun w w' (prog e w o) (prog e w' o') := by
  refine prog_congr hs hw ?_
  rw [read_input hne, read_input (o := o') (by rw [hi]; exact hne), hi]
  have : ∀ x, readStream e o' x = readStream e o x := by
    intro x
    unfold readStream
    rw [hm]
  rw [this]
  congr 1
  by_cases h : o.input = "-"
  · rw [if_pos h] at ht
    rw [if_pos h, if_pos h, ht]
  · rw [if_neg h] at ht
    rw [if_neg h, if_neg h, ht]

/-- C85, sources: with separate files, the run depends on those files only; standard input is read if the PDA is given as `-`. The option
`--msgpack` is ignored. -/
theorem c85_separate {e : ProgEnv} {w w' : World} {o o' : ProgOpts} (hs : SameSolve o o') (hw : SameWritable w w' o) (hsep : Separate o)
    (hi : o'.input = o.input ∧ o'.pda = o.pda ∧ o'.initial = o.initial ∧ o'.final = o.final)
    (ho : o'.format = o.format ∧ o'.weight = o.weight ∧ o'.names = o.names ∧ o'.jsonAutomata = o.jsonAutomata)
    (hp : if o.pda = "-" then w'.stdin = w.stdin else w'.files o.pda = w.files o.pda)
    (ha : w'.files o.initial = w.files o.initial ∧ w'.files o.final = w.files o.final) : SameRun w w' (prog e w o) (prog e w' o') := by
  refine prog_congr hs hw ?_
  obtain ⟨i1, i2, i3, i4⟩ := hi
  obtain ⟨o1, o2, o3, o4⟩ := ho
  have hA : ∀ {W : Type} [Zero W] (f : String) (p : NPda String String W), w'.files f = w.files f → readAutomaton e w' o' f p = readAutomaton e w o f p := by
    intro W _ f p hf
    unfold readAutomaton
    rw [hf, o3, o4]
  have hP : (if o.pda = "-" then some w'.stdin else w'.files o.pda) = if o.pda = "-" then some w.stdin else w.files o.pda := by
    split
    · rename_i h
      rw [if_pos h] at hp
      rw [hp]
    · rename_i h
      rw [if_neg h] at hp
      exact hp
  rw [read_sep hsep, read_sep (o := o') ⟨i1.trans hsep.input, i2 ▸ hsep.pda, i3 ▸ hsep.initial, i4 ▸ hsep.final⟩]
  unfold readSeparate
  rw [o1, o2, i2, hP, o3, i3, i4]
  simp only [fun (k : WKind) (p : NPda String String k.Carrier) => hA o.initial p ha.1,
    fun (k : WKind) (p : NPda String String k.Carrier) => hA o.final p ha.2]

/-- C85, sources: if one of the three files is not given, the others are ignored without an error, and the instance is read from standard
input, as with `--input -`. -/
theorem c85_ignored (e : ProgEnv) (w : World) {o : ProgOpts} (hi : o.input = "") (hm : o.pda = "" ∨ o.initial = "" ∨ o.final = "") :
    prog e w o = prog e w { o with input := "-", pda := "", initial := "", final := "" } := by
  have hr : readInstance e w o = readInstance e w { o with input := "-", pda := "", initial := "", final := "" } := by
    rw [read_stdin hi hm, read_input (by simp)]
    rfl
  unfold prog
  rw [hr]
  rfl

/-! ## Files that are missing -/

theorem prog_error {e : ProgEnv} {w : World} {o : ProgOpts} (hk : Works o) (hr : readInstance e w o = .error) :
    prog e w o = ⟨.thrown, some [], w.files⟩ := by
  unfold prog
  rw [hk.1, hk.2, hr]
  rfl

/-- C85, errors: a file that cannot be opened. Nothing has been written then. -/
theorem c85_missing {e : ProgEnv} {w : World} {o : ProgOpts} (hk : Works o)
    (hm : (o.input ≠ "" ∧ o.input ≠ "-" ∧ w.files o.input = none) ∨ (Separate o ∧ o.pda ≠ "-" ∧ w.files o.pda = none) ∨
      (Separate o ∧ w.files o.initial = none)) : prog e w o = ⟨.thrown, some [], w.files⟩ := by
  refine prog_error hk ?_
  rcases hm with ⟨h1, h2, h3⟩ | ⟨h1, h2, h3⟩ | ⟨h1, h2⟩
  · rw [read_input h1, if_neg h2, h3]
    rfl
  · rw [read_sep h1]
    unfold readSeparate
    rw [if_neg h2, h3]
    cases getFormat o.format <;> cases getWeightType o.weight <;> rfl
  · rw [read_sep h1]
    unfold readSeparate
    cases getFormat o.format with
    | none => rfl
    | some f =>
      cases getWeightType o.weight with
      | none => rfl
      | some k =>
        simp only []
        cases (if o.pda = "-" then some w.stdin else w.files o.pda) with
        | none => rfl
        | some text =>
          cases f with
          | moped => rfl
          | pdaaal =>
            simp only []
            cases (e.read false text).bind (parsePda k.io o.names) with
            | none => rfl
            | some p =>
              simp only []
              have : readAutomaton e w o o.initial p = .error := by unfold readAutomaton; rw [h2]
              rw [this]
              rfl

/-- The same for the final automaton, which is opened after the initial one has been read; that may be undefined (C79). -/
theorem c85_missing_final {e : ProgEnv} {w : World} {o : ProgOpts} (hk : Works o) (hs : Separate o) (hm : w.files o.final = none) :
    prog e w o = ⟨.thrown, some [], w.files⟩ ∨ (prog e w o).ending = .undefined := by
  have key : readInstance e w o = .error ∨ readInstance e w o = .undefined := by
    rw [read_sep hs]
    unfold readSeparate
    cases getFormat o.format with
    | none => exact .inl rfl
    | some f =>
      cases getWeightType o.weight with
      | none => exact .inl rfl
      | some k =>
        simp only []
        cases (if o.pda = "-" then some w.stdin else w.files o.pda) with
        | none => exact .inl rfl
        | some text =>
          cases f with
          | moped => exact .inl rfl
          | pdaaal =>
            simp only []
            cases (e.read false text).bind (parsePda k.io o.names) with
            | none => exact .inl rfl
            | some p =>
              simp only []
              cases readAutomaton e w o o.initial p with
              | error => exact .inl rfl
              | undefined => exact .inr rfl
              | ok x =>
                have : readAutomaton e w o o.final x.1 = .error := by unfold readAutomaton; rw [hm]
                left
                show (readAutomaton e w o o.final x.1).bind _ = _
                rw [this]
                rfl
  rcases key with h | h
  · exact .inl (prog_error hk h)
  · right
    unfold prog
    rw [hk.1, hk.2, h]
    rfl

/-! ## What is written -/

theorem doOutput_files (e : ProgEnv) (w : World) (o : ProgOpts) (i : Inst) {f : String} (h1 : f ≠ o.printPda ∨ o.printPda = "")
    (h2 : f ≠ o.printInstance ∨ o.printInstance = "") : (doOutput e w o i).1 f = w.files f := by
  unfold doOutput writeFile
  by_cases a1 : o.printPda = "" <;> by_cases a2 : o.printInstance = "" <;> cases a3 : w.writable o.printPda <;>
    cases a4 : w.writable o.printInstance <;> simp [a1, a2] <;> grind

theorem finish_files (e : ProgEnv) (o : ProgOpts) (i : Inst) (files : String → Option (List Char)) : (finish e o i files).files = files := by
  unfold finish
  cases progVerify e o i with
  | none => rfl
  | some v => cases v <;> rfl

theorem prog_files {e : ProgEnv} {w : World} {o : ProgOpts} : (prog e w o).files = w.files ∨
    ∃ i, readInstance e w o = .ok i ∧ (prog e w o).files = (doOutput e w o i).1 := by
  unfold prog
  split
  · exact .inl rfl
  split
  · exact .inl rfl
  cases readInstance e w o with
  | error => exact .inl rfl
  | undefined => exact .inl rfl
  | ok i =>
    refine .inr ⟨i, rfl, ?_⟩
    simp only []
    split
    · exact finish_files ..
    · rfl

/-- C85, files: however a run ends, no file changes other than those that are named for printing. -/
theorem c85_others (e : ProgEnv) (w : World) (o : ProgOpts) {f : String} (h1 : f ≠ o.printPda ∨ o.printPda = "")
    (h2 : f ≠ o.printInstance ∨ o.printInstance = "") : (prog e w o).files f = w.files f := by
  rcases prog_files (e := e) (w := w) (o := o) with h | ⟨i, _, h⟩
  · rw [h]
  · rw [h]
    exact doOutput_files e w o i h1 h2

theorem doOutput_ok {e : ProgEnv} {w : World} {o : ProgOpts} (hc : CanPrint w o) (i : Inst) : (doOutput e w o i).2 = true ∧
    (o.printInstance ≠ "" → (doOutput e w o i).1 o.printInstance = some (e.dump (i.toJson e.order) ++ ['\n'])) ∧
    (o.printPda ≠ "" → o.printPda ≠ o.printInstance → (doOutput e w o i).1 o.printPda = some (e.dump i.pdaJson ++ ['\n'])) := by
  obtain ⟨h1, h2⟩ := hc
  unfold doOutput writeFile
  by_cases a1 : o.printPda = "" <;> by_cases a2 : o.printInstance = "" <;> simp_all

/-- The run after the instance has been read and printed. -/
theorem prog_ok {e : ProgEnv} {w : World} {o : ProgOpts} (hk : Works o) (hc : CanPrint w o) {i : Inst} (hr : readInstance e w o = .ok i) :
    prog e w o = finish e o i (doOutput e w o i).1 := by
  unfold prog
  rw [hk.1, hk.2, hr]
  simp only []
  rw [(doOutput_ok (e := e) hc i).1]
  rfl

/-- C85, files: once the instance has been read, it is printed, whether there is an engine or not and whatever it does. If both are printed to one
file, the instance is what remains. -/
theorem c85_printed {e : ProgEnv} {w : World} {o : ProgOpts} (hk : Works o) (hc : CanPrint w o) {i : Inst} (hr : readInstance e w o = .ok i) :
    (o.printInstance ≠ "" → (prog e w o).files o.printInstance = some (e.dump (i.toJson e.order) ++ ['\n'])) ∧
    (o.printPda ≠ "" → o.printPda ≠ o.printInstance → (prog e w o).files o.printPda = some (e.dump i.pdaJson ++ ['\n'])) := by
  have h := (doOutput_ok (e := e) hc i).2
  have : (prog e w o).files = (doOutput e w o i).1 := by
    rw [prog_ok hk hc hr, finish_files]
  rw [this]
  exact h

/-! ## Standard output -/

theorem plain_nothing {L W : Type} [Inhabited L] [LinearOrder W] [Zero W] (h h' : HashOrder) (t : TPda L W) (a b : Aut W) (engine : Nat) (any : Bool) :
    (verifyPlain h h' t a b engine any = .nothing ↔ engine = 0) ∧ (4 ≤ engine → verifyPlain h h' t a b engine any = .error) := by
  have hp : ∀ n ans tr, plainReport t n any ans tr ≠ Outcome.nothing := by
    intro n ans tr
    unfold plainReport
    split
    · cases tr <;> simp
    · simp
  unfold verifyPlain
  match engine with
  | 0 => simp
  | 1 => simp [hp]
  | 2 => simp [hp]
  | 3 => simp [hp]
  | n + 4 => simp

theorem short_nothing {L W T : Type} [Inhabited L] [LinearOrder W] [Zero W] [LinearOrder T] [AddCommMonoid T] (val : W → T)
    (hp : Heap (ShElem T) (WithTop T) ShElem.key) (hq : Heap (T × Nat) T Prod.fst) (h : HashOrder) (junk : Nat → Bool) (best : Nat → T)
    (engine fuel : Nat) (t : TPda L W) (a b : Aut W) : (verifyShortest val hp hq h junk best engine fuel t a b = .nothing ↔ engine = 0) ∧
      (4 ≤ engine → verifyShortest val hp hq h junk best engine fuel t a b = .error) := by
  have hs : ∀ n r tr, shortReport t n r tr ≠ (WOutcome.nothing : WOutcome L (WithTop T)) := by
    intro n r tr
    unfold shortReport
    rcases r with s | _ | ⟨i, _ | _⟩
    · simp
    · simp
    · simp
    · simp only []
      rcases tr i with ⟨_ | cs, x⟩ <;> simp
  unfold verifyShortest
  match engine with
  | 0 => simp
  | 1 => simp [hs]
  | 2 => simp [hs]
  | 3 => simp [hs]
  | n + 4 => simp

theorem fixed_nothing {L W T : Type} [Inhabited L] [LinearOrder W] [Zero W] [LinearOrder T] [OrderBot T] [OrderTop T] [AddCommMonoid T] (val : W → T)
    (h : HashOrder) (unsig : Bool) (word : String) (engine fuel : Nat) (t : TPda L W) (a b : Aut W) :
    (verifyFixed val h unsig word engine fuel t a b = .nothing ↔ engine = 0) ∧
      (4 ≤ engine → verifyFixed val h unsig word engine fuel t a b = .error) := by
  have hs : ∀ n r tr, fixReport t n unsig word r tr ≠ (WOutcome.nothing : WOutcome L T) := by
    intro n r tr
    unfold fixReport
    rcases r with _ | ⟨i, _ | _⟩
    · simp
    · simp
    · simp only []
      rcases tr i with _ | ⟨cs, x⟩ <;> simp
  unfold verifyFixed
  match engine with
  | 0 => simp
  | 1 => simp [hs]
  | 2 => simp [hs]
  | 3 =>
    simp only []
    rcases Instance.interleavingFixedPointAccepts val h t.core (Instance.ofAutomata t.core.size (a.paired val) (b.paired val))
      (Instance.ofAutomata t.core.size (a.paired val) (b.paired val)) fuel with _ | ⟨r, byPre⟩
    · simp
    · simp [hs]
  | n + 4 => simp

theorem map_nothing {L U V : Type} (f : U → V) (x : WOutcome L U) : (x.map f = .nothing ↔ x = .nothing) ∧ (x = .error → x.map f = .error) := by
  cases x <;> simp [WOutcome.map]

theorem weighted_nothing {L U : Type} (x : Outcome L) : ((x.weighted : WOutcome L U) = .nothing ↔ x = .nothing) ∧
    (x = .error → (x.weighted : WOutcome L U) = .error) := by
  cases x <;> simp [Outcome.weighted]

theorem unweighted_nothing {L U : Type} (engine : Nat) : ((verifyUnweighted engine : WOutcome L U) = .nothing ↔ engine = 0) ∧
    (4 ≤ engine → (verifyUnweighted engine : WOutcome L U) = .error) := by
  unfold verifyUnweighted
  by_cases h : engine = 0 <;> simp [h]

theorem progVerify_engine (e : ProgEnv) (o : ProgOpts) (i : Inst) {v : WOutcome String (WithTop (WithBot Int))} (hv : progVerify e o i = some v) :
    (v = .nothing ↔ o.engine = 0) ∧ (4 ≤ o.engine → v = .error) := by
  obtain ⟨k, names, p, a, b⟩ := i
  unfold progVerify at hv
  cases ht : o.trace with
  | none =>
    rw [ht] at hv
    cases hv
    have := plain_nothing e.order e.order' p.toTPda a.toAut b.toAut o.engine false
    exact ⟨(weighted_nothing _).1.trans this.1, fun h => (weighted_nothing _).2 (this.2 h)⟩
  | any =>
    rw [ht] at hv
    cases hv
    have := plain_nothing e.order e.order' p.toTPda a.toAut b.toAut o.engine true
    exact ⟨(weighted_nothing _).1.trans this.1, fun h => (weighted_nothing _).2 (this.2 h)⟩
  | shortest =>
    rw [ht] at hv
    cases k with
    | uints => cases hv
    | ints => cases hv
    | none => cases hv; exact ⟨(map_nothing _ _).1.trans (unweighted_nothing _).1, fun h => (map_nothing _ _).2 ((unweighted_nothing _).2 h)⟩
    | uint => cases hv; exact ⟨(map_nothing _ _).1.trans (short_nothing (W := Int) ..).1, fun h => (map_nothing _ _).2 ((short_nothing (W := Int) ..).2 h)⟩
    | int => cases hv; exact ⟨(map_nothing _ _).1.trans (short_nothing (W := Int) ..).1, fun h => (map_nothing _ _).2 ((short_nothing (W := Int) ..).2 h)⟩
  | longest =>
    rw [ht] at hv
    cases k with
    | uints => cases hv
    | ints => cases hv
    | none => cases hv; exact unweighted_nothing _
    | uint => cases hv; exact fixed_nothing (W := Int) ..
    | int => cases hv; exact fixed_nothing (W := Int) ..
  | fixedPoint =>
    rw [ht] at hv
    cases k with
    | uints => cases hv
    | ints => cases hv
    | none => cases hv; exact ⟨(map_nothing _ _).1.trans (unweighted_nothing _).1, fun h => (map_nothing _ _).2 ((unweighted_nothing _).2 h)⟩
    | uint => cases hv; exact ⟨(map_nothing _ _).1.trans (fixed_nothing (W := Int) ..).1, fun h => (map_nothing _ _).2 ((fixed_nothing (W := Int) ..).2 h)⟩
    | int => cases hv; exact ⟨(map_nothing _ _).1.trans (fixed_nothing (W := Int) ..).1, fun h => (map_nothing _ _).2 ((fixed_nothing (W := Int) ..).2 h)⟩

/-- The entry for the time of parsing. -/
def parsingEntry (e : ProgEnv) (o : ProgOpts) : List (String × List Char) :=
  if o.silent then [] else [("parsing-duration", e.val (.num e.parsing))]

/-- What is modelled: all but the trace types 2 to 4 with vectors. -/
def Modelled (o : ProgOpts) (i : Inst) : Prop := i.kind.isVector = false ∨ o.trace = .none ∨ o.trace = .any

theorem progVerify_some (e : ProgEnv) {o : ProgOpts} {i : Inst} (hv : Modelled o i) : ∃ v, progVerify e o i = some v := by
  unfold progVerify
  rcases hv with hv | hv | hv
  · rw [hv]
    cases o.trace <;> exact ⟨_, rfl⟩
  · rw [hv]; exact ⟨_, rfl⟩
  · rw [hv]; exact ⟨_, rfl⟩

/-- C85, standard output: once the instance is read and printed, the program ends with status 0 exactly if there is no engine or a report. Then
it has written a JSON object with the report, or without an engine one with at most the time of parsing; with `--silent` nothing in that case. -/
theorem c85_output {e : ProgEnv} {w : World} {o : ProgOpts} (hk : Works o) (hc : CanPrint w o) {i : Inst} (hr : readInstance e w o = .ok i)
    (hm : Modelled o i) :
    ((prog e w o).ending = .code 0 ↔ o.engine = 0 ∨ ∃ r, progVerify e o i = some (.report r)) ∧
    (o.engine = 0 → ∃ out, (prog e w o).out = some out ∧ (if o.silent then out = [] else JText (JTree.ofEntries (parsingEntry e o)) out)) ∧
    (∀ r, progVerify e o i = some (.report r) → ∃ out, (prog e w o).out = some out ∧
      JText (JTree.ofEntries (parsingEntry e o ++ reportEntries e.val (e.num i.kind) e.time r)) out) := by
  obtain ⟨v, hv⟩ := progVerify_some e hm
  have hE := (progVerify_engine e o i hv).1
  have hp := prog_ok hk hc hr
  unfold finish at hp
  rw [hv] at hp
  refine ⟨?_, fun h0 => ?_, fun r hv' => ?_⟩
  · rw [hp, ← hE, hv]
    cases v <;> simp
  · obtain rfl := hE.2 h0
    rw [hp]
    unfold parsingEntry
    obtain ⟨⟨out, h1, h2⟩, h3, _⟩ := c82_nothing e.val (e.num i.kind) e.parsing e.time
    cases hs : o.silent with
    | true => exact ⟨[], h3, rfl⟩
    | false => exact ⟨out, h1, h2⟩
  · rw [hv'] at hv
    obtain rfl := Option.some.inj hv
    rw [hp]
    exact c82_output e.val (e.num i.kind) o.silent e.parsing e.time r

/-- C85, errors: an engine that does not exist, after the instance has been printed (`c85_printed`). -/
theorem c85_engine {e : ProgEnv} {w : World} {o : ProgOpts} (hk : Works o) (hc : CanPrint w o) {i : Inst} (hr : readInstance e w o = .ok i)
    (he : 4 ≤ o.engine) (hm : Modelled o i) : (prog e w o).ending = .thrown := by
  obtain ⟨v, h1⟩ := progVerify_some e hm
  have h2 := (progVerify_engine e o i h1).2 he
  rw [prog_ok hk hc hr]
  unfold finish
  rw [h1, h2]

/-- C85, errors: if a file cannot be opened for printing, the program ends with status 255, and what it has written is not a JSON object: it has
begun one and not ended it. -/
theorem c85_unclosed {e : ProgEnv} {w : World} {o : ProgOpts} (hk : Works o) (hc : ¬ CanPrint w o) {i : Inst} (hr : readInstance e w o = .ok i)
    (hv : (e.val (.num e.parsing)).getLast? ≠ some '}') :
    (prog e w o).ending = .code 255 ∧ ∃ out, (prog e w o).out = some out ∧ ∀ t : JTree, t.IsObj → ¬ JText t out := by
  have h2 : (doOutput e w o i).2 = false := by
    unfold CanPrint at hc
    unfold doOutput writeFile
    by_cases a1 : o.printPda = "" <;> by_cases a2 : o.printInstance = "" <;> cases a3 : w.writable o.printPda <;>
      cases a4 : w.writable o.printInstance <;> simp_all
  have hp : prog e w o = ⟨.code 255, (JStream.calls {} (firstCalls e o)).map (·.out), (doOutput e w o i).1⟩ := by
    unfold prog
    rw [hk.1, hk.2, hr]
    simp only []
    rw [h2]
    rfl
  rw [hp]
  refine ⟨rfl, ?_⟩
  have hlast : ∀ (t : JTree) (s : List Char), t.IsObj → JText t s → s.getLast? = some '}' := by
    intro t s ht h
    cases h with
    | leaf => exact ht.elim
    | empty => rw [← List.cons_append, List.getLast?_append]; rfl
    | obj => rw [← List.cons_append, List.getLast?_append]; rfl
  cases hs : o.silent with
  | true =>
    refine ⟨[], by simp [firstCalls, hs, JStream.calls], fun t ht h => ?_⟩
    cases hlast t _ ht h
  | false =>
    have hout : (JStream.calls {} (firstCalls e o)).map (·.out) =
        some (['{', '\n'] ++ JStream.spaces 1 ++ ('"' :: "parsing-duration".toList ++ ['"', ' ', ':', ' ']) ++ e.val (.num e.parsing)) := by
      unfold firstCalls
      rw [hs]
      rfl
    refine ⟨_, hout, fun t ht h => ?_⟩
    have := hlast t _ ht h
    rw [List.getLast?_append] at this
    cases hl : (e.val (.num e.parsing)).getLast? with
    | some c =>
      rw [hl] at this hv
      exact hv this
    | none =>
      rw [hl] at this
      exact absurd this (by decide)

/-! ## Reports on separate files -/

/-- The contents of the separate files: the PDA, and the automata as text or, with `--json-automata`, as JSON. -/
structure Holds (e : ProgEnv) (w : World) (o : ProgOpts) (pda : List JEv) (fs : AutFiles) : Prop where
  sep : Separate o
  pda : ∃ s, (if o.pda = "-" then some w.stdin else w.files o.pda) = some s ∧ e.read false s = some pda
  automata : match fs with
    | .text si sf => o.jsonAutomata = false ∧ w.files o.initial = some si ∧ w.files o.final = some sf
    | .json a b => o.jsonAutomata = true ∧ (∃ s, w.files o.initial = some s ∧ e.read false s = some a) ∧
        ∃ s, w.files o.final = some s ∧ e.read false s = some b

section Separate
variable {e : ProgEnv} {w : World} {o : ProgOpts} {pda : List JEv} {fs : AutFiles}

theorem read_pda (hh : Holds e w o pda fs) (hf : SameWord o.format "pdaaal") {k : WKind} (hw : getWeightType o.weight = some k)
    {p : NPda String String k.Carrier} (hp : parsePda k.io o.names pda = some p) :
    readInstance e w o = (readAutomaton e w o o.initial p).bind fun x => (readAutomaton e w o o.final x.1).bind fun y => .ok ⟨k, o.names, y.1, x.2, y.2⟩ := by
  obtain ⟨s, h1, h2⟩ := hh.pda
  rw [read_sep hh.sep]
  unfold readSeparate
  rw [(c81_options o.format).1.2 hf, hw]
  simp only [h1, h2, Option.bind_some, hp]

theorem text_states (ha : ∀ k, Function.Injective (e.addr k)) {W : Type} [Zero W] {p : NPda String String W} (hn : p.labels.Nodup)
    (hN : NamesOK o.names p) {s : List Char} {x : TPda String W × Aut W}
    (h : parsePAutText e.order e.addr (findState o.names p) p.toTPda s = .ok x) : x.1.states = p.states := by
  obtain ⟨as, -, hx⟩ := c80_only e.order ha h
  exact (c72_labels e.order ha p.toTPda (findState_lt hN) hn as hx).1

theorem read_report (ha : ∀ k, Function.Injective (e.addr k)) (hh : Holds e w o pda fs) (hf : SameWord o.format "pdaaal") {k : WKind}
    (hw : getWeightType o.weight = some k) (ho : IsObject pda) {p : NPda String String k.Carrier} (hp : parsePda k.io o.names pda = some p) {U : Type}
    {verify : TPda String k.Carrier → Aut k.Carrier → Aut k.Carrier → WOutcome String U} {r : WReport String U}
    (hr : withAutomata e.order e.addr o.names p fs verify = .report r) :
    ∃ p' a b, readInstance e w o = .ok ⟨k, o.names, p', a, b⟩ ∧ verify p'.toTPda a.toAut b.toAut = .report r := by
  rw [read_pda hh hf hw hp]
  have hA := hh.automata
  obtain ⟨hn, _, hN⟩ := c77_wellformed k.io ho hp
  cases fs with
  | text si sf =>
    obtain ⟨hj, hi, hfi⟩ := hA
    unfold withAutomata at hr
    simp only [] at hr
    cases hx : parsePAutText e.order e.addr (findState o.names p) p.toTPda si with
    | error => rw [hx] at hr; cases hr
    | undefined => rw [hx] at hr; cases hr
    | ok x =>
      rw [hx] at hr
      simp only [] at hr
      have hst := text_states (o := o) ha hn hN hx
      have hx' : readAutomaton e w o o.initial p = .ok ({ p with toTPda := x.1 }, { toAut := x.2 }) := by
        unfold readAutomaton
        rw [hi, hj]
        simp only [Bool.false_eq_true, if_false]
        rw [hx]
      have hfind : findState o.names { p with toTPda := x.1 } = findState o.names p := by
        funext s
        unfold findState
        simp only [hst]
      cases hy : parsePAutText e.order e.addr (findState o.names p) x.1 sf with
      | error => rw [hy] at hr; cases hr
      | undefined => rw [hy] at hr; cases hr
      | ok y =>
        rw [hy] at hr
        simp only [] at hr
        have hy' : readAutomaton e w o o.final { p with toTPda := x.1 } = .ok ({ p with toTPda := y.1 }, { toAut := y.2 }) := by
          unfold readAutomaton
          rw [hfi, hj]
          simp only [Bool.false_eq_true, if_false]
          rw [hfind, hy]
        refine ⟨{ p with toTPda := y.1 }, { toAut := x.2 }, { toAut := y.2 }, ?_, hr⟩
        rw [hx']
        show (readAutomaton e w o o.final { p with toTPda := x.1 }).bind _ = _
        rw [hy']
        rfl
  | json a b =>
    obtain ⟨hj, ⟨s, h1, h2⟩, s', h3, h4⟩ := hA
    unfold withAutomata runDocs parseJInstance at hr
    simp only [] at hr
    cases hx : parseJAut o.names p a with
    | error => rw [hx] at hr; cases hr
    | undefined => rw [hx] at hr; cases hr
    | ok x =>
      have hx' : readAutomaton e w o o.initial p = .ok x := by
        unfold readAutomaton
        rw [h1, hj]
        simp only [if_true, h2, hx]
      rw [hx] at hr
      cases hy : parseJAut o.names x.1 b with
      | error => simp only [SaxRes.bind, hy] at hr; cases hr
      | undefined => simp only [SaxRes.bind, hy] at hr; cases hr
      | ok y =>
        simp only [SaxRes.bind, hy] at hr
        have hy' : readAutomaton e w o o.final x.1 = .ok y := by
          unfold readAutomaton
          rw [h3, hj]
          simp only [if_true, h4, hy]
        refine ⟨y.1, x.2, y.2, ?_, hr⟩
        rw [hx']
        show (readAutomaton e w o o.final x.1).bind _ = _
        rw [hy']
        rfl

theorem weightType_scalar {s : List Char} {k : WKind} (h : getWeightType s = some k) : k.isVector = false := by
  unfold getWeightType at h
  split at h
  · cases h; rfl
  split at h
  · cases h; rfl
  split at h
  · cases h; rfl
  · cases h

/-- The run of the program, if the files are read and the search gives a report. -/
theorem files_report {U : WKind → Type} {verify : (k : WKind) → TPda String k.Carrier → Aut k.Carrier → Aut k.Carrier → WOutcome String (U k)}
    {g : (k : WKind) → U k → WithTop (WithBot Int)} (ha : ∀ k, Function.Injective (e.addr k)) (hk : Works o) (hc : CanPrint w o) (hh : Holds e w o pda fs)
    (ho : IsObject pda) (hV : ∀ i : Inst, i.kind.isVector = false → progVerify e o i = some ((verify i.kind i.pda.toTPda i.ini.toAut i.fin.toAut).map (g i.kind)))
    {k : WKind} {r : WReport String (U k)} (hr : runFilesBy e.order e.addr o.format o.weight o.names pda fs verify = some ⟨k, .report r⟩) :
    (prog e w o).ending = .code 0 ∧ ∃ out, (prog e w o).out = some out ∧
      JText (JTree.ofEntries (parsingEntry e o ++ reportEntries e.val (e.num k) e.time (r.map (g k)))) out := by
  unfold runFilesBy at hr
  cases hf : getFormat o.format with
  | none => rw [hf] at hr; cases hr
  | some f =>
    rw [hf] at hr
    cases f with
    | moped => cases hr
    | pdaaal =>
      cases hw : getWeightType o.weight with
      | none => rw [hw] at hr; cases hr
      | some k' =>
        rw [hw] at hr
        simp only [] at hr
        cases hp : parsePda k'.io o.names pda with
        | none => rw [hp] at hr; cases hr
        | some p =>
          rw [hp] at hr
          have h1 := Option.some.inj hr
          obtain rfl : k' = k := congrArg Sigma.fst h1
          have h2 := eq_of_heq (Sigma.mk.inj h1).2
          obtain ⟨p', a, b, h3, h4⟩ := read_report ha hh ((c81_options o.format).1.1 hf) hw ho hp h2
          have hs := weightType_scalar hw
          have hv := hV ⟨k', o.names, p', a, b⟩ hs
          simp only [h4] at hv
          obtain ⟨e1, _, e3⟩ := c85_output hk hc h3 (.inl hs)
          exact ⟨e1.2 (.inr ⟨_, hv⟩), e3 _ hv⟩

theorem weighted_by (engine : Nat) (any : Bool) {r : Report String} {si sf : List Char}
    (hr : runFiles e.order e.order' e.addr o.format o.weight o.names pda si sf engine any = .report r) :
    ∃ k, runFilesBy e.order e.addr o.format o.weight o.names pda (.text si sf)
      (fun k (t : TPda String k.Carrier) a b => (verifyPlain e.order e.order' t a b engine any).weighted (U := WithTop (WithBot Int))) =
        some ⟨k, .report ⟨r.engine, r.result, none, r.trace⟩⟩ := by
  unfold runFiles at hr
  unfold runFilesBy
  cases hf : getFormat o.format with
  | none => rw [hf] at hr; cases hr
  | some f =>
    rw [hf] at hr
    cases hw : getWeightType o.weight with
    | none => rw [hw] at hr; cases hr
    | some k =>
      rw [hw] at hr
      cases f with
      | moped => cases hr
      | pdaaal =>
        simp only [] at hr ⊢
        cases hp : parsePda k.io o.names pda with
        | none => rw [hp] at hr; cases hr
        | some p =>
          rw [hp] at hr
          refine ⟨k, ?_⟩
          simp only [Option.map_some]
          simp only [] at hr
          unfold runText at hr
          unfold withAutomata
          simp only []
          cases hx : parsePAutText e.order e.addr (findState o.names p) p.toTPda si with
          | error => rw [hx] at hr; cases hr
          | undefined => rw [hx] at hr; cases hr
          | ok x =>
            rw [hx] at hr
            simp only [] at hr ⊢
            cases hy : parsePAutText e.order e.addr (findState o.names p) x.1 sf with
            | error => rw [hy] at hr; cases hr
            | undefined => rw [hy] at hr; cases hr
            | ok y =>
              rw [hy] at hr
              simp only [] at hr ⊢
              rw [hr]
              rfl

/-- C85, trace types none and any on texts: the program prints the report. With C81, which says what the report is, see `c85_answer_partial`. -/
theorem c85_plain (ha : ∀ k, Function.Injective (e.addr k)) (hk : Works o) (hc : CanPrint w o) {si sf : List Char} (hh : Holds e w o pda (.text si sf))
    (ho : IsObject pda) {any : Bool} (ht : o.trace = if any then .any else .none) {r : Report String}
    (hr : runFiles e.order e.order' e.addr o.format o.weight o.names pda si sf o.engine any = .report r) :
    (prog e w o).ending = .code 0 ∧ ∃ k out, (prog e w o).out = some out ∧
      JText (JTree.ofEntries (parsingEntry e o ++ reportEntries e.val (e.num k) e.time ⟨r.engine, r.result, none, r.trace⟩)) out := by
  obtain ⟨k, h⟩ := weighted_by o.engine any hr
  have := files_report (g := fun _ x => x) ha hk hc hh ho (fun i _ => by
    unfold progVerify
    cases any <;> rw [ht] <;> simp only [Bool.false_eq_true, if_false, if_true] <;>
      cases verifyPlain e.order e.order' i.pda.toTPda i.ini.toAut i.fin.toAut o.engine _ <;> rfl) h
  exact ⟨this.1, k, this.2⟩

/-- C85, trace type shortest: the program prints the report that C83 describes. -/
theorem c85_shortest (ha : ∀ k, Function.Injective (e.addr k)) (hk : Works o) (hc : CanPrint w o) (hh : Holds e w o pda fs) (ho : IsObject pda)
    (ht : o.trace = .shortest) {k : WKind} {r : WReport String (ShortWeight k)}
    (hr : runFilesBy e.order e.addr o.format o.weight o.names pda fs (verifyShortestFor e.uns e.sig e.order e.junk o.engine e.fuel) = some ⟨k, .report r⟩) :
    (prog e w o).ending = .code 0 ∧ ∃ out, (prog e w o).out = some out ∧
      JText (JTree.ofEntries (parsingEntry e o ++ reportEntries e.val (e.num k) e.time (r.map (shortWeight k)))) out := by
  refine files_report ha hk hc hh ho (fun i hi => ?_) hr
  unfold progVerify
  rw [ht]
  simp only [hi, Bool.false_eq_true, if_false]

/-- C85, trace type shortest by fixed point. -/
theorem c85_fixed (ha : ∀ k, Function.Injective (e.addr k)) (hk : Works o) (hc : CanPrint w o) (hh : Holds e w o pda fs) (ho : IsObject pda)
    (ht : o.trace = .fixedPoint) {k : WKind} {r : WReport String (FixWeight k)}
    (hr : runFilesBy e.order e.addr o.format o.weight o.names pda fs (verifyFixedFor e.order o.engine e.fuel) = some ⟨k, .report r⟩) :
    (prog e w o).ending = .code 0 ∧ ∃ out, (prog e w o).out = some out ∧
      JText (JTree.ofEntries (parsingEntry e o ++ reportEntries e.val (e.num k) e.time (r.map (fixWeight k)))) out := by
  refine files_report ha hk hc hh ho (fun i hi => ?_) hr
  unfold progVerify
  rw [ht]
  simp only [hi, Bool.false_eq_true, if_false]

/-- C85, trace type longest. -/
theorem c85_longest (ha : ∀ k, Function.Injective (e.addr k)) (hk : Works o) (hc : CanPrint w o) (hh : Holds e w o pda fs) (ho : IsObject pda)
    (ht : o.trace = .longest) {k : WKind} {r : WReport String (WithTop (WithBot Int))}
    (hr : runFilesBy e.order e.addr o.format o.weight o.names pda fs (verifyLongestFor e.order o.engine e.fuel) = some ⟨k, .report r⟩) :
    (prog e w o).ending = .code 0 ∧ ∃ out, (prog e w o).out = some out ∧
      JText (JTree.ofEntries (parsingEntry e o ++ reportEntries e.val (e.num k) e.time r)) out := by
  have := files_report (g := fun _ x => x) ha hk hc hh ho (fun i hi => by
    unfold progVerify
    rw [ht]
    simp only [hi, Bool.false_eq_true, if_false]
    congr 1
    cases verifyLongestFor e.order o.engine e.fuel i.kind i.pda.toTPda i.ini.toAut i.fin.toAut with
    | report r => unfold WOutcome.map WReport.map; congr 2; cases r with | mk _ _ x _ => cases x with | none => rfl | some x => cases x <;> rfl
    | _ => rfl) hr
  have e1 : r.map (fun x => x) = r := by
    unfold WReport.map
    cases r with | mk _ _ x _ => cases x with | none => rfl | some x => cases x <;> rfl
  rwa [e1] at this

/-- C85, the whole program with trace type none or any on separate files: it ends with status 0 and writes a JSON object that tells whether a
configuration that the first text describes reaches one that the second describes, and a run if it is asked for one. The full statement is
without `x.ok`, the number of labels, the limit on states, and the order of rules with signed weights; see C81. -/
theorem c85_answer_partial (ha : ∀ k, Function.Injective (e.addr k)) (hk : Works o) (hc : CanPrint w o) {si sf : List Char}
    (hh : Holds e w o pda (.text si sf)) (hf : SameWord o.format "pdaaal") {k : WKind} (hw : getWeightType o.weight = some k) (ho : IsObject pda)
    {p : NPda String String k.Carrier} (hp : parsePda k.io o.names pda = some p) {ini fin : List (PAtom String String)} (hsi : AtomsText ini si)
    (hsf : AtomsText fin sf) (hok : ∀ x ∈ ini ++ fin, x.ok = true) {t' : TPda String k.Carrier} {a b : Aut k.Carrier}
    (hi : parseInstance e.order e.addr (findState o.names p) p.toTPda ini fin = some (t', a, b)) (hl : t'.labels.length < epsilon)
    (he : 1 ≤ o.engine ∧ o.engine ≤ 3) (hr : o.engine = 1 ∨ k ≠ .int ∨ p.core.LookupOK) {any : Bool} (ht : o.trace = if any then .any else .none)
    (hm : any = true → StatesFit (searched e.order t'.core a b o.engine)) :
    (prog e w o).ending = .code 0 ∧ ∃ r k out, (prog e w o).out = some out ∧
      Right (findState o.names p) (· ∈ t'.allRules) p.labels ini fin (["post*", "pre*", "dual*"].getD (o.engine - 1) "") any r ∧
      JText (JTree.ofEntries (parsingEntry e o ++ reportEntries e.val (e.num k) e.time ⟨r.engine, r.result, none, r.trace⟩)) out := by
  obtain ⟨r, h1, h2⟩ := c81_report_partial e.order e.order' ha hf hw ho hp hsi hsf hok hi hl o.engine he hr any hm
  obtain ⟨h3, k', out, h4, h5⟩ := c85_plain ha hk hc hh ho ht h1
  exact ⟨h3, r, k', out, h4, h2, h5⟩

end Separate

/-! ## Printing an instance and running it -/

/-- C85: what is printed with `--print-solver-instance` and then given with `--input` has the same answer. The library reads what it has printed.
The full statement is without `InstOK` and for signed weights too; see C78. -/
theorem c85_again_partial {e e' : ProgEnv} {w : World} {o o' : ProgOpts} (hk : Works o) (hc : CanPrint w o) {i : Inst} (hr : readInstance e w o = .ok i)
    (hi : InstOK i) (hp : o.printInstance ≠ "") (hk' : Works o') (hin : o'.input = o.printInstance) (hd : o.printInstance ≠ "-") (hb : o'.msgpack = false)
    {w' : World} (hw' : w'.files o.printInstance = (prog e w o).files o.printInstance) (hc' : CanPrint w' o')
    (hlib : e'.read false (e.dump (i.toJson e.order) ++ ['\n']) = some (i.toJson e.order))
    (he : 1 ≤ o.engine ∧ o.engine ≤ 3) (heq : o'.engine = o.engine) (hsig : o.engine = 1 ∨ i.kind ≠ .int) {any any' : Bool}
    (ht : o.trace = if any then .any else .none) (ht' : o'.trace = if any' then .any else .none)
    (hm : any = true → StatesFit (searched e.order i.pda.core i.ini.toAut i.fin.toAut o.engine))
    (hm' : ∀ j, parseInstDoc (i.toJson e.order) = .ok j → any' = true → StatesFit (searched e'.order j.pda.core j.ini.toAut j.fin.toAut o.engine)) :
    (prog e w o).ending = .code 0 ∧ (prog e' w' o').ending = .code 0 ∧ ∃ r r' : WReport String (WithTop (WithBot Int)), r'.engine = r.engine ∧ r'.result = r.result ∧
      (∃ out, (prog e w o).out = some out ∧ JText (JTree.ofEntries (parsingEntry e o ++ reportEntries e.val (e.num i.kind) e.time r)) out) ∧
      ∃ out, (prog e' w' o').out = some out ∧ JText (JTree.ofEntries (parsingEntry e' o' ++ reportEntries e'.val (e'.num i.kind) e'.time r')) out := by
  obtain ⟨p', a, b, h1, h2⟩ := c78_answer_partial e.order e.order e.order' e'.order e'.order' hi
  obtain ⟨r, r', k1, k2, k3, k4⟩ := h2 o.engine he hsig any any' hm (hm' _ h1)
  have hfile := (c85_printed hk hc hr).1 hp
  have hread : readInstance e' w' o' = .ok ⟨i.kind, i.names, p', a, b⟩ := by
    rw [read_input (hin ▸ hp), hin, if_neg hd, hw', hfile]
    unfold readStream
    simp only [hb, hlib, h1]
  have hv : progVerify e o i = some (.report ⟨r.engine, r.result, none, r.trace⟩) := by
    unfold progVerify
    cases any <;> rw [ht] <;> simp only [Bool.false_eq_true, if_false, if_true] <;> rw [k1] <;> rfl
  have hv' : progVerify e' o' ⟨i.kind, i.names, p', a, b⟩ = some (.report ⟨r'.engine, r'.result, none, r'.trace⟩) := by
    unfold runInst at k2
    rw [h1] at k2
    simp only [] at k2
    unfold progVerify
    cases any' <;> rw [ht'] <;> simp only [Bool.false_eq_true, if_false, if_true] <;> rw [heq, k2] <;> rfl
  have hM : Modelled o i := .inr (by cases any <;> rw [ht] <;> simp)
  have hM' : Modelled o' ⟨i.kind, i.names, p', a, b⟩ := .inr (by cases any' <;> rw [ht'] <;> simp)
  obtain ⟨e1, _, e2⟩ := c85_output hk hc hr hM
  obtain ⟨e3, _, e4⟩ := c85_output hk' hc' hread hM'
  exact ⟨e1.2 (.inr ⟨_, hv⟩), e3.2 (.inr ⟨_, hv'⟩), _, _, k3, k4, e2 _ hv, e4 _ hv'⟩

/-! ## Cases -/

/-- The instance in separate files, and what is printed for it. -/
def sumInst : Inst := ⟨.uint, false, sumFilePda, { toAut := sumFileA }, { toAut := sumFileB }⟩

theorem sumInst_ok : InstOK sumInst where
  wf := Pda.WF_build 2 sumFileCalls (by simp [sumFileCalls, PdaCall.OK, WSorted])
  stateNames := fun h => by cases h
  noStar := by
    show ∀ a ∈ ["a", "b"], a ≠ "*"
    decide
  weights := readable_scalar (nt := .uint 32) (fun _ => rfl) (by
    show ∀ ps ∈ sumFilePda.states, _
    decide +kernel)
  last := fun _ => by
    intro n hn
    obtain rfl : n = 1 := by
      have : (2 : Nat) = n + 1 := hn
      omega
    show ∃ r ∈ sumFilePda.allRules, r.src = 1 ∨ r.dst = 1
    decide +kernel
  few := by decide
  ini := ⟨by decide +kernel, by decide, by decide, by decide, by decide, (fun h => by cases h), by decide +kernel⟩
  fin := ⟨by decide +kernel, by decide, by decide, by decide, by decide, (fun h => by cases h), by decide +kernel⟩
  iniAut := ⟨⟨by decide +kernel, by unfold Valid; decide +kernel, by decide⟩, by decide +kernel⟩
  finAut := ⟨⟨by decide +kernel, by unfold Valid; decide +kernel, by decide⟩, by decide +kernel⟩
  iniNew := by unfold Untraced; decide
  finNew := by unfold Untraced; decide
  iniAcc := ⟨sumFileA.n - 1, by decide +kernel⟩
  finAcc := ⟨sumFileB.n - 1, by decide +kernel⟩

/-- A library that knows two documents. -/
def sumEnv (fuel : Nat) : ProgEnv where
  order := HashOrder.id
  order' := HashOrder.id
  addr := exprAddr
  uns := unsEnv
  sig := sigEnv
  junk := fun _ => false
  fuel := fuel
  parsing := ['1']
  time := ['2']
  read := fun _ s => if s = ['P'] then some (pdaDoc sumDoc) else if s = ['I', '\n'] then some (sumInst.toJson HashOrder.id) else none
  dump := fun _ => ['I']
  val := fun _ => ['0']
  num := fun _ _ => ['0']
  help := []
  version := []

def sumWorld : World where
  files := fun f => if f = "p" then some ['P'] else if f = "i" then some "<0,[a]>".toList else if f = "f" then some "<1,[a]>".toList else none
  stdin := []
  writable := fun f => f == "out"

/-- `--pda p --initial i --final f --weight uint` -/
def sumOpts (engine : Nat) (t : TraceOpt) (print : String) : ProgOpts :=
  { pda := "p", initial := "i", final := "f", weight := "uint".toList, engine := engine, trace := t, printInstance := print }

theorem sum_holds (fuel engine : Nat) (t : TraceOpt) (print : String) :
    Holds (sumEnv fuel) sumWorld (sumOpts engine t print) (pdaDoc sumDoc) (.text "<0,[a]>".toList "<1,[a]>".toList) where
  sep := ⟨rfl, (by decide : "p" ≠ ""), (by decide : "i" ≠ ""), (by decide : "f" ≠ "")⟩
  pda := ⟨['P'], (if_neg (by decide : "p" ≠ "-")).trans rfl, by unfold sumEnv; simp only [if_true]⟩
  automata := ⟨rfl, rfl, rfl⟩

theorem sum_print (engine : Nat) (t : TraceOpt) : CanPrint sumWorld (sumOpts engine t "") ∧ CanPrint sumWorld (sumOpts engine t "out") ∧
    ¬ CanPrint sumWorld (sumOpts engine t "in") := by
  unfold CanPrint
  refine ⟨⟨fun h => absurd rfl h, fun h => absurd rfl h⟩, ⟨fun h => absurd rfl h, fun _ => rfl⟩, fun h => ?_⟩
  cases h.2 (by decide : "in" ≠ "")

theorem sum_format : SameWord "pdaaal".toList "pdaaal" := by unfold SameWord; decide

theorem read_text_aut {e : ProgEnv} {w : World} {o : ProgOpts} {f : String} {W : Type} [Zero W] {p : NPda String String W} {s : List Char}
    (hs : w.files f = some s) (hj : o.jsonAutomata = false) {x : TPda String W × Aut W}
    (h : parsePAutText e.order e.addr (findState o.names p) p.toTPda s = .ok x) :
    readAutomaton e w o f p = .ok ({ p with toTPda := x.1 }, { toAut := x.2 }) := by
  unfold readAutomaton
  rw [hs, hj]
  simp only [Bool.false_eq_true, if_false]
  rw [h]

theorem read_texts {e : ProgEnv} {w : World} {o : ProgOpts} {pda : List JEv} {si sf : List Char} (hh : Holds e w o pda (.text si sf)) (hf : SameWord o.format "pdaaal")
    {k : WKind} (hw : getWeightType o.weight = some k) {p : NPda String String k.Carrier} (hp : parsePda k.io o.names pda = some p)
    {x y : TPda String k.Carrier × Aut k.Carrier} (hx : parsePAutText e.order e.addr (findState o.names p) p.toTPda si = .ok x)
    (hy : parsePAutText e.order e.addr (findState o.names { p with toTPda := x.1 }) x.1 sf = .ok y) :
    readInstance e w o = .ok ⟨k, o.names, { p with toTPda := y.1 }, { toAut := x.2 }, { toAut := y.2 }⟩ := by
  rw [read_pda hh hf hw hp, read_text_aut hh.automata.2.1 hh.automata.1 hx]
  show (readAutomaton e w o o.final { p with toTPda := x.1 }).bind _ = _
  rw [read_text_aut hh.automata.2.2 hh.automata.1 hy]
  rfl

theorem sum_read (fuel engine : Nat) (t : TraceOpt) (print : String) : readInstance (sumEnv fuel) sumWorld (sumOpts engine t print) = .ok sumInst := by
  have h1 : parsePAut HashOrder.id exprAddr (findState false sumFilePda) sumFilePda.toTPda fileIni = some (sumFilePda.toTPda, sumFileA) :=
    parse_one_by (t' := sumFilePda.toTPda) (by simp [PBuild.addStates, PBuild.addState, sumFile_find.1]) rfl rfl (reportNfa_compile _ _)
  have h2 : parsePAut HashOrder.id exprAddr (findState false sumFilePda) sumFilePda.toTPda fileFin = some (sumFilePda.toTPda, sumFileB) :=
    parse_one_by (t' := sumFilePda.toTPda) (by simp [PBuild.addStates, PBuild.addState, sumFile_find.2]) rfl rfl (reportNfa_compile _ _)
  have g1 := c80_text HashOrder.id exprAddr_inj (find := findState false sumFilePda) sumFilePda.toTPda fileIni_text
  have g2 := c80_text HashOrder.id exprAddr_inj (find := findState false sumFilePda) sumFilePda.toTPda fileFin_text
  rw [h1] at g1
  rw [h2] at g2
  exact read_texts (k := .uint) (x := (sumFilePda.toTPda, sumFileA)) (y := (sumFilePda.toTPda, sumFileB)) (sum_holds fuel engine t print) sum_format rfl sumDoc_read g1 g2

/-- Non-vacuity of `c85_answer_partial`: every engine finds the run. -/
example (engine : Nat) (he : 1 ≤ engine ∧ engine ≤ 3) : (prog (sumEnv 0) sumWorld (sumOpts engine .none "")).ending = .code 0 :=
  (c85_answer_partial (k := .uint) exprAddr_inj ⟨rfl, rfl⟩ (sum_print engine .none).1 (sum_holds 0 engine .none "") sum_format rfl
    (object_in sumDoc_object "pda") sumDoc_read fileIni_text fileFin_text (by decide) sumFile_parse (by decide) he (.inr (.inl (by decide))) (any := false) rfl
    (fun h => by cases h)).1

/-- The printed instance gives the same answer; the second run is asked for no trace. -/
example (engine : Nat) (he : 1 ≤ engine ∧ engine ≤ 3) {w' : World} (hw : w'.files "out" = some ['I', '\n']) :
    (prog (sumEnv 0) w' { input := "out", engine := engine }).ending = .code 0 :=
  (c85_again_partial (o := sumOpts engine .none "out") (o' := { input := "out", engine := engine }) ⟨rfl, rfl⟩ (sum_print engine .none).2.1 (sum_read 0 engine .none "out")
    sumInst_ok (by decide : "out" ≠ "") ⟨rfl, rfl⟩ rfl (by decide : "out" ≠ "-") rfl
    (hw.trans ((c85_printed ⟨rfl, rfl⟩ (sum_print engine .none).2.1 (sum_read 0 engine .none "out")).1 (by decide : "out" ≠ "")).symm)
    ⟨fun h => absurd rfl h, fun h => absurd rfl h⟩ rfl he rfl (.inr (by decide)) (any := false) (any' := false) rfl rfl (fun h => by cases h) (fun _ _ h => by cases h)).2.1

/-- Shortest runs by fixed points: the program ends. -/
example (engine : Nat) (he : 1 ≤ engine ∧ engine ≤ 3) : ∃ fuel, (prog (sumEnv fuel) sumWorld (sumOpts engine .fixedPoint "")).ending = .code 0 := by
  obtain ⟨fuel0, r, h1, -⟩ := c83_fixed_partial HashOrder.id HashOrder.id exprAddr_inj (format := "pdaaal".toList) (weight := "uint".toList)
    (by unfold SameWord; decide) (by unfold SameWord; decide)
    (object_in sumDoc_object "pda") sumDoc_read fileIni_text fileFin_text (by decide) sumFile_parse (by decide) engine he (sumFile_fixFits engine he)
  exact ⟨fuel0, (c85_fixed (k := .uint) exprAddr_inj ⟨rfl, rfl⟩ (sum_print engine .fixedPoint).1 (sum_holds fuel0 engine .fixedPoint "")
    (object_in sumDoc_object "pda") rfl (h1 fuel0 (Nat.le_refl _))).1⟩

/-- The file `in` cannot be written: the program has begun to write an object. -/
example (engine : Nat) : (prog (sumEnv 0) sumWorld (sumOpts engine .none "in")).ending = .code 255 :=
  (c85_unclosed ⟨rfl, rfl⟩ (sum_print engine .none).2.2 (sum_read 0 engine .none "in") (by decide : (['0'] : List Char).getLast? ≠ some '}')).1

/-- One of the three files is missing: the program reads standard input instead, and nobody is told. -/
theorem c85_ignored_wrong (engine : Nat) (w : World) : prog (sumEnv 0) w { pda := "p", initial := "i", engine := engine } = prog (sumEnv 0) w { engine := engine } :=
  (c85_ignored (sumEnv 0) w (o := { pda := "p", initial := "i", engine := engine }) rfl (.inr (.inr rfl))).trans
    (c85_ignored (sumEnv 0) w (o := { engine := engine }) rfl (.inl rfl)).symm

end Verif.Props
