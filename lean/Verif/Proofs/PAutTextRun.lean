import Verif.Proofs.PAutText
import Verif.Proofs.RegexRun

/-!
# The actions of the text of a P-automaton
-/

namespace Verif

open Peg RegexText

/-- Continues unless there was an exception or undefined behaviour. -/
def Parsed.bind {A B : Type} : Parsed A → (A → Parsed B) → Parsed B
  | .ok a, f => f a
  | .error, _ => .error
  | .undefined, _ => .undefined

section Run
variable {W : Type} [Zero W] (h : HashOrder) (addr : Nat → Nat → Nat) (find : String → Option (Option Nat))

theorem PRun.acts_cons (a : PAct) (l : List PAct) (s : PRun W) :
    PRun.acts h addr find (a :: l) s = (s.act h addr find a).bind (PRun.acts h addr find l) := by
  rw [PRun.acts]
  cases s.act h addr find a <;> rfl

theorem PRun.acts_append (l k : List PAct) (s : PRun W) :
    PRun.acts h addr find (l ++ k) s = (PRun.acts h addr find l s).bind (PRun.acts h addr find k) := by
  induction l generalizing s with
  | nil => rfl
  | cons a l ih =>
    rw [List.cons_append, PRun.acts_cons, PRun.acts_cons]
    cases s.act h addr find a with
    | ok s => exact ih s
    | error => rfl
    | undefined => rfl

theorem PRun.acts_states (ts : List (StateTok String)) (s : PRun W) :
    (∃ b, s.b.addStates find ts = some b ∧ PRun.acts h addr find (ts.map .state) s = .ok { s with b := b }) ∨
    (s.b.addStates find ts = none ∧ PRun.acts h addr find (ts.map .state) s = .error) := by
  induction ts generalizing s with
  | nil => exact .inl ⟨s.b, rfl, rfl⟩
  | cons t ts ih =>
    rw [List.map_cons, PRun.acts_cons]
    simp only [PBuild.addStates, PRun.act]
    cases ht : s.b.addState find t with
    | none => exact .inr ⟨rfl, rfl⟩
    | some b =>
      simp only [Option.bind_some, Parsed.bind]
      exact ih { s with b := b }

theorem PRun.acts_nfa (l : List NAct) (s : PRun W) (hs : s.b.pda = s.r.env) :
    (∃ r, RState.acts (addr s.k) (fun t x => t.insertLabel x) l s.r = some r ∧
      PRun.acts h addr find (l.map .nfa) s = .ok { s with r := r, b := { s.b with pda := r.env } }) ∨
    (RState.acts (addr s.k) (fun t x => t.insertLabel x) l s.r = none ∧ PRun.acts h addr find (l.map .nfa) s = .undefined) := by
  induction l generalizing s with
  | nil =>
    refine .inl ⟨s.r, rfl, ?_⟩
    rw [← hs]; rfl
  | cons a l ih =>
    rw [List.map_cons, PRun.acts_cons, RState.acts_cons]
    simp only [PRun.act]
    cases ht : s.r.act (addr s.k) (fun t x => t.insertLabel x) a with
    | none => exact .inr ⟨rfl, rfl⟩
    | some r =>
      simp only [Option.bind_some, Parsed.bind]
      exact ih { s with r := r, b := { s.b with pda := r.env } } rfl

/-- The actions of an expression give the automaton that its syntax tree gives. -/
theorem optLog_run (ha : Function.Injective (addr k)) (e : Option (SAlt String)) (t : TPda String W) :
    ∃ r m, RState.acts (addr k) (fun t x => t.insertLabel x) (optLog e) { env := t } = some r ∧ r.env = (encOpt t e).1 ∧
      r.b.getNfa (addr k) = some m ∧ parseRegex (addr k) (encOpt t e).2 = some m := by
  cases e with
  | none => exact ⟨{ env := t }, _, rfl, rfl, rfl, rfl⟩
  | some e =>
    have h1 := SAlt.run_log (addr k) (fun (t : TPda String W) x => t.insertLabel x) e t {}
    rw [SAlt.encWith_pda] at h1
    obtain ⟨n, b1, m, k', g1, g2, g3, g4⟩ := RAlt.acts_spec ha (e.enc t).2 {} (by simp)
    have h5 : Builder.reduceOr (addr k) b1 = some ⟨[m], [], k'⟩ :=
      Builder.reduceOrLoop_eq (addr k) n _ b1 _ [] g2 (by simp) (by rw [g2]; simp) g3
    have h6 : RAlt.acts (addr k) (e.enc t).2 {} = some ⟨[m], [], k'⟩ := by
      unfold RAlt.acts
      rw [g1, Option.bind_some, h5]
    rw [h6] at h1
    refine ⟨_, m, h1, rfl, rfl, ?_⟩
    simp only [parseRegex, encOpt, h6, Option.bind_some]
    rfl

theorem PRun.acts_atom (ha : ∀ k, Function.Injective (addr k)) (a : PAtom String String) (s : PRun W) :
    (∃ b s', s.b.atom h (addr s.k) find a = some b ∧ PRun.acts h addr find (PAutText.plog a) s = .ok s' ∧ s'.b = b ∧ s'.k = s.k + 1) ∨
    (s.b.atom h (addr s.k) find a = none ∧ PRun.acts h addr find (PAutText.plog a) s = .error) := by
  unfold PAutText.plog
  rw [PRun.acts_append]
  rcases PRun.acts_states h addr find a.states s with ⟨b, h1, h2⟩ | ⟨h1, h2⟩
  · refine .inl ?_
    rw [h2, Parsed.bind, PRun.acts_cons]
    simp only [PRun.act, Parsed.bind]
    rw [PRun.acts_append]
    obtain ⟨r, m, g1, g2, g3, g4⟩ := optLog_run addr (ha s.k) a.expr b.pda
    rcases PRun.acts_nfa h addr find (optLog a.expr) { s with b := b, r := { env := b.pda } } rfl with ⟨r', k1, k2⟩ | ⟨k1, -⟩
    · have : r' = r := Option.some.inj (k1.symm.trans g1)
      subst this
      rw [k2]
      simp only [Parsed.bind, PRun.acts_cons, PRun.act, g3]
      refine ⟨_, _, ?_, rfl, rfl, rfl⟩
      unfold PBuild.atom
      rw [h1, Option.bind_some, g4, Option.map_some, ← g2]
    · rw [show RState.acts (addr s.k) (fun t x => t.insertLabel x) (optLog a.expr) { env := b.pda } = none from k1] at g1
      cases g1
  · refine .inr ?_
    rw [h2]
    unfold PBuild.atom
    rw [h1]
    exact ⟨rfl, rfl⟩

theorem PRun.acts_atoms (ha : ∀ k, Function.Injective (addr k)) (as : List (PAtom String String)) (s : PRun W) :
    (∃ b s', s.b.atoms h addr find s.k as = some b ∧ PRun.acts h addr find (as.flatMap PAutText.plog) s = .ok s' ∧ s'.b = b) ∨
    (s.b.atoms h addr find s.k as = none ∧ PRun.acts h addr find (as.flatMap PAutText.plog) s = .error) := by
  induction as generalizing s with
  | nil => exact .inl ⟨s.b, s, rfl, rfl, rfl⟩
  | cons a as ih =>
    rw [List.flatMap_cons, PRun.acts_append]
    simp only [PBuild.atoms]
    rcases PRun.acts_atom h addr find ha a s with ⟨b, s', h1, h2, h3, h4⟩ | ⟨h1, h2⟩
    · rw [h1, h2, Option.bind_some, Parsed.bind, ← h3, ← h4]
      exact ih s'
    · rw [h1, h2]
      exact .inr ⟨rfl, rfl⟩

end Run

/-! ## No undefined behaviour without a dangling bar -/

namespace PAutText

section Safe
variable {W : Type} [Zero W] {h : HashOrder} {addr : Nat → Nat → Nat} {find : String → Option (Option Nat)}

/-- Actions that are never undefined. -/
def Safe (W : Type) [Zero W] (h : HashOrder) (addr : Nat → Nat → Nat) (find : String → Option (Option Nat)) (l : List PAct) : Prop :=
  ∀ s : PRun W, PRun.acts h addr find l s ≠ .undefined

theorem Safe.nil : Safe W h addr find [] := fun s => by simp [PRun.acts]

theorem Safe.append {l k : List PAct} (hl : Safe W h addr find l) (hk : Safe W h addr find k) : Safe W h addr find (l ++ k) := by
  intro s
  rw [PRun.acts_append]
  cases hs : PRun.acts h addr find l s with
  | ok s' => exact hk s'
  | error => simp [Parsed.bind]
  | undefined => exact absurd hs (hl s)

/-- The actions of a rule. -/
def logOf {A : Type} : Peg A → List A
  | .ok _ l => l
  | .fail l => l
  | .throw l => l

/-- A rule whose actions are never undefined on texts without a dangling bar. -/
def SafeRule (W : Type) [Zero W] (h : HashOrder) (addr : Nat → Nat → Nat) (find : String → Option (Option Nat)) (p : PRule PAct) : Prop :=
  ∀ s, ¬ DanglingBar s → Safe W h addr find (logOf (p s))

theorem logOf_after {A : Type} (l : List A) (x : Peg A) : logOf (after l x) = l ++ logOf x := by cases x <;> rfl

variable {p q : PRule PAct}

theorem SafeRule.seq (hsub : Sub p) (hp : SafeRule W h addr find p) (hq : SafeRule W h addr find q) : SafeRule W h addr find (Peg.seq p q) := by
  intro s hd
  have := hp s hd
  cases hs : p s with
  | ok r l =>
    rw [seq_ok hs, logOf_after]
    rw [hs] at this
    exact this.append (hq r fun hb => hd (RegexText.DanglingBar.suffix hb (hsub _ _ _ hs)))
  | fail l => rw [seq_fail hs]; rw [hs] at this; exact this
  | throw l => rw [seq_throw hs]; rw [hs] at this; exact this

theorem SafeRule.sor (hp : SafeRule W h addr find p) (hq : SafeRule W h addr find q) : SafeRule W h addr find (Peg.sor p q) := by
  intro s hd
  have := hp s hd
  cases hs : p s with
  | ok r l => rw [sor_ok hs]; rw [hs] at this; exact this
  | fail l =>
    rw [sor_fail hs, logOf_after]
    rw [hs] at this
    exact this.append (hq s hd)
  | throw l =>
    have : logOf (Peg.sor p q s) = logOf (p s) := by simp [Peg.sor, hs]
    rw [this]; exact hp s hd

theorem SafeRule.must (hp : SafeRule W h addr find p) : SafeRule W h addr find (Peg.must p) := by
  intro s hd
  have : logOf (Peg.must p s) = logOf (p s) := by
    unfold Peg.must
    cases p s <;> rfl
  rw [this]; exact hp s hd

theorem SafeRule.act {a : PAct} (ha : Safe W h addr find [a]) (hp : SafeRule W h addr find p) : SafeRule W h addr find (Peg.act a p) := by
  intro s hd
  have := hp s hd
  cases hs : p s with
  | ok r l => rw [act_ok hs]; rw [hs] at this; exact this.append ha
  | fail l =>
    have h1 : logOf (Peg.act a p s) = logOf (p s) := by simp [Peg.act, hs]
    rw [h1, hs]; rw [hs] at this; exact this
  | throw l =>
    have h1 : logOf (Peg.act a p s) = logOf (p s) := by simp [Peg.act, hs]
    rw [h1, hs]; rw [hs] at this; exact this

theorem SafeRule.star (hshr : Shrinks p) (hsub : Sub p) (hp : SafeRule W h addr find p) : SafeRule W h addr find (Peg.star p) := by
  intro s
  induction hn : s.length using Nat.strongRecOn generalizing s with
  | ind n ih =>
    intro hd
    have := hp s hd
    cases hs : p s with
    | ok r l =>
      rw [star_ok hshr hs, logOf_after]
      rw [hs] at this
      have hl := hshr _ _ _ hs
      exact this.append (ih r.length (by omega) r rfl fun hb => hd (RegexText.DanglingBar.suffix hb (hsub _ _ _ hs)))
    | fail l => rw [star_fail hs]; rw [hs] at this; exact this
    | throw l => rw [star_throw hs]; rw [hs] at this; exact this

theorem safe_of_nil (hp : ∀ s, logOf (p s) = []) : SafeRule W h addr find p := by
  intro s _
  rw [hp s]
  exact Safe.nil

theorem safe_one (c : Char) : SafeRule W h addr find (one c) := safe_of_nil fun s => by
  unfold one sat
  cases s with
  | nil => rfl
  | cons d r => simp only []; split <;> rfl

theorem safe_skip : SafeRule W h addr find (Peg.star ignored) := safe_of_nil fun s => by
  obtain ⟨r, hr, -⟩ := skip_ok (A := PAct) s
  rw [hr]; rfl

theorem safe_eof : SafeRule W h addr find eof := safe_of_nil fun s => by cases s <;> rfl

theorem SafeRule.pad (hsub : Sub p) (hp : SafeRule W h addr find p) : SafeRule W h addr find (Peg.pad p ignored) :=
  SafeRule.seq sub_skip safe_skip (SafeRule.seq hsub hp safe_skip)

theorem SafeRule.listMust {c : Char} (hsub : Sub p) (hp : SafeRule W h addr find p) :
    SafeRule W h addr find (Peg.listMust p (one c) ignored) :=
  SafeRule.seq hsub hp (SafeRule.star (shrinks_moreOf hsub) (sub_moreOf hsub)
    (SafeRule.seq (Sub.pad (sub_one _) shrinks_ignored sub_ignored) (SafeRule.pad (sub_one _) (safe_one c)) hp.must))

theorem safe_state1 (t : StateTok String) : Safe W h addr find [.state t] := by
  intro s
  rw [PRun.acts_cons]
  simp only [PRun.act]
  cases s.b.addState find t <;> simp [Parsed.bind, PRun.acts]

theorem safe_state : SafeRule W h addr find state := by
  intro s hd
  cases hs : state s with
  | ok r l =>
    obtain ⟨t, -, rfl⟩ := state_inv hs
    exact safe_state1 t
  | fail l => rw [state_fail_inv hs]; exact Safe.nil
  | throw l => exact absurd hs state_not_throw

theorem safe_initial : SafeRule W h addr find initial :=
  SafeRule.sor (SafeRule.seq (sub_one _) (safe_one _) (SafeRule.seq (sub_listMust sub_state).must
    (SafeRule.listMust sub_state safe_state).must (safe_one _).must)) safe_state

theorem safe_nfaState (ha : ∀ k, Function.Injective (addr k)) : SafeRule W h addr find nfaState := by
  intro s hd st
  have key : ∀ l : List NAct, (RState.acts (addr st.k) (fun (t : TPda String W) x => t.insertLabel x) l { env := st.b.pda }).isSome →
      ∃ r, RState.acts (addr st.k) (fun (t : TPda String W) x => t.insertLabel x) l { env := st.b.pda } = some r ∧
      PRun.acts h addr find (.begin :: l.map .nfa) st = .ok { st with r := r, b := { st.b with pda := r.env } } := by
    intro l hl
    rw [PRun.acts_cons]
    simp only [PRun.act, Parsed.bind]
    rcases PRun.acts_nfa h addr find l { st with r := { env := st.b.pda } } rfl with ⟨r, h1, h2⟩ | ⟨h1, -⟩
    · exact ⟨r, h1, h2⟩
    · rw [show RState.acts (addr st.k) (fun (t : TPda String W) x => t.insertLabel x) l { env := st.b.pda } = none from h1] at hl
      cases hl
  cases hs : nfaPadded s with
  | ok r l =>
    have hn : logOf (nfaState s) = (.begin :: l.map PAct.nfa) ++ [.finish] := by simp [nfaState, hs, logOf]
    rw [hn, PRun.acts_append]
    obtain ⟨-, ⟨e, -, rfl⟩ | ⟨hb, -⟩⟩ := nfaPadded_inv hs
    · obtain ⟨r', m, g1, g2, g3, g4⟩ := optLog_run addr (ha st.k) e st.b.pda
      obtain ⟨r'', k1, k2⟩ := key (optLog e) (by rw [g1]; rfl)
      rw [g1] at k1
      cases k1
      rw [k2]
      simp [Parsed.bind, PRun.acts, PRun.act, g3]
    · exact absurd hb hd
  | fail l => exact absurd hs nfaPadded_not_fail
  | throw l =>
    have hn : logOf (nfaState s) = .begin :: l.map PAct.nfa := by simp [nfaState, hs, logOf]
    rw [hn]
    obtain ⟨a, hl⟩ := nfaPadded_throw_inv hs hd
    obtain ⟨r'', k1, k2⟩ := key l (acts_prefix _ (ha st.k) hl _)
    rw [k2]
    simp

theorem safe_atom (ha : ∀ k, Function.Injective (addr k)) : SafeRule W h addr find atom :=
  SafeRule.act (fun s => by simp [PRun.acts, PRun.act])
    (SafeRule.seq (sub_one _) (safe_one _) (SafeRule.seq (Sub.pad sub_initial shrinks_ignored sub_ignored)
      (SafeRule.pad sub_initial safe_initial) (SafeRule.seq (sub_one _) (safe_one _)
        (SafeRule.seq sub_nfaState (safe_nfaState ha) (safe_one _)))))

theorem safe_file (ha : ∀ k, Function.Injective (addr k)) : SafeRule W h addr find file :=
  SafeRule.seq (Sub.pad (sub_listMust sub_atom) shrinks_ignored sub_ignored).must
    (SafeRule.pad (sub_listMust sub_atom) (SafeRule.listMust sub_atom (safe_atom ha))).must safe_eof.must

end Safe

end PAutText

end Verif
