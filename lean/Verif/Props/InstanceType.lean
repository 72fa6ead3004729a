import Verif.Proofs.InstanceType
import Verif.Props.InstanceJson

/-! # C77: the type of an instance, whatever its text -/

namespace Verif.Props

open Verif

/-- C77, the type: an instance is accepted only if its first element gives a Boolean for `state-names` and a string or an array for
`weight-type`, each once, and nothing else; the instance then has this type, and the other elements are read with it. -/
theorem c77_type {ty q a b : List JEv} (ht : IsObject ty) (hq : IsObject q) (ha : IsObject a) (hb : IsObject b) {i : Inst}
    (h : parseInstDoc (instEvents ty q a b) = .ok i) :
    TypeObject ty i.names i.kind ∧ ∃ p p1, parsePda i.kind.io i.names (pdaDoc q) = some p ∧
      parseJAutR false i.names p (autDoc a) = .ok (p1, i.ini) ∧ parseJAutR false i.names p1 (autDoc b) = .ok (i.pda, i.fin) := by
  obtain ⟨h1, h2⟩ := parse_inst_any ht hq ha hb h
  refine ⟨h1, ?_⟩
  obtain ⟨p, g1, h2⟩ := SaxRes.bind_ok h2
  obtain ⟨⟨p1, a1⟩, g2, h2⟩ := SaxRes.bind_ok h2
  obtain ⟨⟨p2, b1⟩, g3, h2⟩ := SaxRes.bind_ok h2
  have hp : parsePda i.kind.io i.names (pdaDoc q) = some p := by
    unfold pdaDoc
    cases hx : parsePda i.kind.io i.names ([.startObj, .key "pda"] ++ q ++ [.endObj]) with
    | none => rw [hx] at g1; cases g1
    | some p' => rw [hx] at g1; cases g1; rfl
  obtain ⟨k, names, pda, ini, fin⟩ := i
  simp only [SaxRes.ok.injEq, Inst.mk.injEq, heq_eq_eq, true_and] at h2
  obtain ⟨e1, e2, e3⟩ := h2
  rw [← e1, ← e2, ← e3]
  exact ⟨p, p1, hp, g2, g3⟩

/-- The type of the document of `inst_read`. -/
example : TypeObject (typeEvents instType) false .none :=
  (c77_type ⟨_, rfl, .step rfl (.step rfl (.step rfl (.step rfl (.step rfl .done))))⟩ instText_object (autInner_object _) (autInner_object _) inst_read).1

/-- The weight type in two arrays is accepted as if it were in one, and there a number may follow. -/
theorem c77_nested (q a b : List JEv) (hq : IsObject q) (ha : IsObject a) (hb : IsObject b) (n : Nat) (i : Inst) :
    parseInstDoc (instEvents [.startObj, .key "state-names", .bool false, .key "weight-type", .startArr, .startArr, .str "uint", .endArr, .uns n, .endArr, .endObj] q a b) = .ok i ↔
    parseInstDoc (instEvents [.startObj, .key "state-names", .bool false, .key "weight-type", .startArr, .str "uint", .endArr, .endObj] q a b) = .ok i := by
  have h1 := fun t => inst_tail .uints false t hq ha hb
  have h2 : ∀ ty : List JEv, ∀ t, ISax.run ([.startObj, .key "instance", .startArr] ++ ty) {} = .ok { phase := .pda .uints false (Sax.inside WKind.uints.io), type := t, stack := [(.instance, .array 2), (.initial, .object [])], lastKey := true } →
      parseInstDoc (instEvents ty q a b) = (ISax.run (q ++ (a ++ (b ++ [.endArr, .endObj]))) { phase := .pda .uints false (Sax.inside WKind.uints.io), type := t, stack := [(.instance, .array 2), (.initial, .object [])], lastKey := true }).bind ISax.result := by
    intro ty t h
    have app : ∀ (l r : List JEv) (s : ISax), ISax.run (l ++ r) s = (ISax.run l s).bind (ISax.run r) := by
      intro l
      induction l with
      | nil => intro r s; rfl
      | cons e l ih =>
        intro r s
        show (s.event e).bind (ISax.run (l ++ r)) = ((s.event e).bind (ISax.run l)).bind _
        cases s.event e with
        | ok s' => exact ih r s'
        | error => rfl
        | undefined => rfl
    unfold parseInstDoc
    rw [show instEvents ty q a b = ([.startObj, .key "instance", .startArr] ++ ty) ++ (q ++ (a ++ (b ++ [.endArr, .endObj]))) by simp [instEvents],
      app, h]
    rfl
  rw [h2 _ { weight := "uint", array := true, size := some n } rfl, h2 _ { weight := "uint", array := true } rfl, h1, h1]

end Verif.Props
