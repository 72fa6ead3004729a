import Verif.Proofs.ProductLang

/-! # The entry points on an instance -/

namespace Verif

variable {W : Type}

theorem Aut.ext_of {a b : Aut W} (h1 : a.edges = b.edges) (h2 : a.n = b.n) (h3 : ∀ q, q < a.n → a.isAcc q = b.isAcc q) :
    a = b := by
  have h4 : a.acc = b.acc := by
    refine List.ext_getElem? fun i => ?_
    by_cases hi : i < a.acc.length
    · have hi' : i < b.acc.length := by
        have := h2
        unfold Aut.n at this
        omega
      have := h3 i hi
      unfold Aut.isAcc at this
      rw [List.getElem?_eq_getElem hi, List.getElem?_eq_getElem hi'] at this ⊢
      simpa using this
    · have hi' : ¬ i < b.acc.length := by
        have := h2
        unfold Aut.n at this
        omega
      rw [List.getElem?_eq_none (by omega), List.getElem?_eq_none (by omega)]
  cases a; cases b; simp_all

namespace Product

theorem ofAutomata_comm (size : Nat) (a b : Aut W) : ofAutomata size a b = ofAutomata size b a := by
  unfold ofAutomata
  congr 2
  apply List.filter_congr
  intro i _
  exact Bool.and_comm _ _

variable [Zero W]

theorem init_good (h : HashOrder) {dual et : Bool} {size : Nat} {A B : Aut W} (hA : InRange A) (hB : InRange B)
    (sA : size ≤ A.n) (sB : size ≤ B.n) :
    ROK dual et A B ((ofAutomata size A B).initProduct h dual et A B) ∧
    ((ofAutomata size A B).initProduct h dual et A B).1.size = size := by
  obtain ⟨h1, h2⟩ := initProduct_spec (et := et) h hA hB (ofAutomata_inv dual sA sB)
  exact ⟨h1, h2.size⟩

theorem ROK.good {dual et : Bool} {size : Nat} {A B : Aut W} (hA : InRange A) (hB : InRange B) {r : Product W × Bool}
    (h : ROK dual et A B r) (hs : r.1.size = size) :
    (r.2 = true → Hit dual size A B r.1) ∧ (r.2 = false → Good dual size A B r.1) :=
  ⟨fun h1 => ⟨h.inv, by rw [← h.flag]; exact h1, hs⟩,
    fun h1 => ⟨h.inv, h.complete (.inr h1), by rw [← h.flag]; exact h1, hs, hA, hB⟩⟩

end Product

open Product

variable {σ : Type}

variable [LinearOrder W] [Zero W]

theorem PreLoop.setExt {p : Pda W} {a0 : Aut W} {s : PreSt W σ} (h : PreLoop p a0 s) (e : σ) :
    PreLoop p a0 { s with ext := e } := by
  obtain ⟨h1, h2, h3⟩ := h
  exact ⟨by cases h1; constructor <;> assumption, h2, h3⟩

theorem PostInv.setExt {p : Pda W} {a0 : Aut W} {s : PostSt W σ} (h : PostInv p a0 s) (e : σ) :
    PostInv p a0 { s with ext := e } := by
  cases h; constructor <;> assumption

theorem AutOK.inRange {p : Pda W} {a : Aut W} (h : AutOK p a) : InRange a :=
  fun t ht => ⟨(h.valid t ht).1, (h.valid t ht).2.2⟩

theorem postInit_aut (h : HashOrder) (p : Pda W) (a : Aut W) (e : σ) : (postInit h p a e).aut = (qInit p a).1 := by
  unfold postInit
  simp only
  have key : ∀ (l : List Tr) (s : PostSt W σ), (l.foldl (postInitEdge p) s).aut = s.aut := by
    intro l
    induction l with
    | nil => intro s; rfl
    | cons t l ih =>
      intro s
      rw [List.foldl_cons, ih]
      unfold postInitEdge
      split
      · rfl
      · rw [(insertRel_frame p _ t).1]
  rw [key]

theorem qInit_same (p : Pda W) (a : Aut W) :
    (qInit p a).1.edges = a.edges ∧ (∀ q, (qInit p a).1.isAcc q = a.isAcc q) ∧ a.n ≤ (qInit p a).1.n := by
  obtain ⟨hq, _⟩ := qInit_inv p a
  refine ⟨hq.edges, fun q => ?_, by unfold Aut.n; rw [hq.acc]; simp⟩
  unfold Aut.isAcc
  rw [hq.acc]
  by_cases h1 : q < a.acc.length
  · rw [List.getElem?_append_left h1]
  · rw [List.getElem?_append_right (by omega), List.getElem?_eq_none (l := a.acc) (by omega)]
    by_cases h2 : q - a.acc.length < (qInit p a).2.length
    · rw [List.getElem?_replicate_of_lt h2]; rfl
    · rw [List.getElem?_eq_none (by simp; omega)]

namespace Instance.Dual

/-- The invariant of the dual search. -/
structure DInv (p : Pda W) (a0 b0 : Aut W) (d : Dual W) : Prop where
  pre : PreLoop p b0 d.pre
  post : PostInv p a0 d.post
  ext : d.pre.ext = d.post.ext
  good : d.found = false → Good true p.size d.post.aut d.pre.aut d.post.ext
  hit : d.found = true → Hit true p.size d.post.aut d.pre.aut d.post.ext

theorem DInv.nPre {p : Pda W} {a0 b0 : Aut W} {d : Dual W} (h : DInv p a0 b0 d) : d.pre.aut.n = b0.n := by
  unfold Aut.n; rw [h.pre.inv.acc]

theorem stepPost_inv (h : HashOrder) {p : Pda W} (hp : p.WF) {a0 b0 : Aut W} (ha : PostOK p a0) {d : Dual W}
    (hd : DInv p a0 b0 d) (hf : d.found = false) :
    DInv p a0 b0 (stepPost h p d) ∧ (stepPost h p d).pre.found = false ∧
      (stepPost h p d).post.aut.n = d.post.aut.n := by
  have hf' := hf
  unfold Dual.found at hf'
  rw [Bool.or_eq_false_iff] at hf'
  have hfo := postStep_found hp ha (N := d.post.aut.n)
    (cbFirst_spec h true p.size d.post.aut.n d.pre.aut (V := PValid p d.post.aut.n) (fun t ht => ⟨ht.1, ht.2.2.1⟩))
    hd.post rfl ⟨fun _ => ⟨rfl, hd.good hf⟩, fun h1 => by rw [hf'.2] at h1; simp at h1⟩
  have hn : (postStep p (cbFirst h true d.pre.aut) d.post).aut.n = d.post.aut.n := by
    unfold Aut.n; rw [postStep_n]
  have hpost := hd.post.step hp ha (cbFirst h true d.pre.aut)
  unfold stepPost
  dsimp only
  generalize postStep p (cbFirst h true d.pre.aut) d.post = s at *
  refine ⟨⟨hd.pre.setExt _, hpost, rfl, ?_, ?_⟩, hf'.1, hn⟩
  · intro h1
    unfold Dual.found at h1
    rw [Bool.or_eq_false_iff] at h1
    exact (hfo.1 h1.2).2
  · intro h1
    unfold Dual.found at h1
    rw [Bool.or_eq_true] at h1
    rcases h1 with h1 | h1
    · dsimp only at h1; rw [hf'.1] at h1; simp at h1
    · exact hfo.2 h1

theorem stepPre_inv (h : HashOrder) {p : Pda W} (hp : p.WF) {a0 b0 : Aut W} (hb : AutOK p b0)
    {d : Dual W} (hd : DInv p a0 b0 d) (hf : d.found = false) : DInv p a0 b0 (stepPre h p d) := by
  have hf' := hf
  unfold Dual.found at hf'
  rw [Bool.or_eq_false_iff] at hf'
  have hfo := preStep_found hp hb
    (cbSecond_spec h p.size b0.n d.post.aut (V := Valid p b0.n) (fun t ht => ⟨ht.1, ht.2.2⟩))
    hd.pre.inv ⟨fun _ => ⟨hd.nPre, by rw [hd.ext]; exact hd.good hf⟩, fun h1 => by rw [hf'.1] at h1; simp at h1⟩
  have hpre := hd.pre.step hp hb (cbSecond h d.post.aut)
  unfold stepPre
  dsimp only
  generalize preStep p (cbSecond h d.post.aut) d.pre = s at *
  refine ⟨hpre, hd.post.setExt _, rfl, ?_, ?_⟩
  · intro h1
    unfold Dual.found at h1
    rw [Bool.or_eq_false_iff] at h1
    exact (hfo.1 h1.1).2
  · intro h1
    unfold Dual.found at h1
    rw [Bool.or_eq_true] at h1
    rcases h1 with h1 | h1
    · exact hfo.2 h1
    · dsimp only at h1; rw [hf'.2] at h1; simp at h1

theorem run_spec (h : HashOrder) {p : Pda W} (hp : p.WF) {a0 b0 : Aut W} (ha : PostOK p a0)
    (hb : AutOK p b0) (k : Nat) {d : Dual W} (hd : DInv p a0 b0 d)
    (hm : d.post.ws.length + (postFuel p d.post - d.post.aut.edges.length) ≤ k) :
    DInv p a0 b0 (run h p k d) ∧
    ((run h p k d).found = true ∨ (run h p k d).pre.ws = [] ∨ (run h p k d).post.ws = []) := by
  induction k generalizing d with
  | zero => exact ⟨hd, .inr (.inr (List.length_eq_zero_iff.1 (by simp only [run]; omega)))⟩
  | succ k ih =>
    unfold run
    by_cases hc : (d.found || d.pre.ws.isEmpty || d.post.ws.isEmpty) = true
    · rw [if_pos hc]
      refine ⟨hd, ?_⟩
      simpa [or_assoc] using hc
    · rw [if_neg hc]
      simp only [Bool.or_eq_true, not_or, Bool.not_eq_true, List.isEmpty_eq_false_iff] at hc
      obtain ⟨⟨c1, c2⟩, c3⟩ := hc
      obtain ⟨i1, i2, i3⟩ := stepPost_inv h hp ha hd c1
      have hme := postStep_measure hp ha (cbFirst h true d.pre.aut) hd.post c3
      dsimp only
      by_cases hf : (stepPost h p d).post.found = true
      · rw [if_pos hf]
        exact ⟨i1, .inl (by unfold Dual.found; rw [hf, Bool.or_true])⟩
      · rw [if_neg hf]
        have hf1 : (stepPost h p d).found = false := by
          unfold Dual.found
          rw [i2, Bool.false_or]
          simpa using hf
        refine ih (stepPre_inv h hp hb i1 hf1) ?_
        have h2 : postFuel p (stepPre h p (stepPost h p d)).post = postFuel p d.post := by
          unfold postFuel
          show (stepPost h p d).post.aut.n * _ * (stepPost h p d).post.aut.n = _
          rw [i3]
        rw [h2]
        show (postStep p (cbFirst h true d.pre.aut) d.post).ws.length +
          (postFuel p d.post - (postStep p (cbFirst h true d.pre.aut) d.post).aut.edges.length) ≤ k
        omega

theorem start_inv (h : HashOrder) {p : Pda W} (hp : p.WF) {i : Instance W} (ha : PostOK p i.initial)
    (hb : AutOK p i.final) {e : Product W} (hg : Good true p.size i.initial i.final e) :
    DInv p i.initial i.final (start h p i e) := by
  have hfo := preInit_found h hp hb
    (cbSecond_spec h p.size i.final.n i.initial (V := Valid p i.final.n) (fun t ht => ⟨ht.1, ht.2.2⟩)) ⟨rfl, hg⟩
  have hpre := preInit_loop h hp (cbSecond h i.initial) i.final e
  unfold start
  dsimp only
  generalize preInit h p (cbSecond h i.initial) i.final e = s at *
  obtain ⟨h1, h2, h3, _, _⟩ := postInit_inv h ha s.ext
  obtain ⟨q1, q2, q3⟩ := qInit_same p i.initial
  have hau := postInit_aut h p i.initial s.ext
  refine ⟨hpre, h1, h3.symm, ?_, ?_⟩
  · intro hf
    unfold Dual.found at hf
    rw [Bool.or_eq_false_iff] at hf
    dsimp only
    rw [hau, h3]
    exact (hfo.1 hf.1).2.mono q1 rfl q2 (fun _ => rfl) q3 (Nat.le_refl _)
  · intro hf
    unfold Dual.found at hf
    dsimp only at hf ⊢
    rw [h2, Bool.or_false] at hf
    rw [hau, h3]
    exact (hfo.2 hf).mono (by rw [q1]; exact fun _ h => h) (fun _ h => h) q2 (fun _ => rfl) q3 (Nat.le_refl _)

end Instance.Dual

/-! ## What the engines compute -/

/-- The specification of all engines: a configuration of the first automaton can reach one of the second. -/
def Connected (p : Pda W) (a b : Aut W) : Prop :=
  ∃ c c', c.1 < p.size ∧ Accepted (· ∈ keys a.edges) (fun q => a.isAcc q = true) c ∧ Reach p.Has c c' ∧
    Accepted (· ∈ keys b.edges) (fun q => b.isAcc q = true) c'

theorem reach_lt {p : Pda W} (hp : p.WF) {c c' : Config} (hr : Reach p.Has c c') (h : c.1 < p.size) : c'.1 < p.size := by
  induction hr with
  | refl => exact h
  | tail _ hs _ =>
    cases hs with
    | mk r w hR => 
      rw [Pda.Has_iff] at hR
      obtain ⟨l, hm, _⟩ := hR
      exact hp.toLt _ _ hm

theorem AutOK.noEps {p : Pda W} (hl : p.nLabels ≤ epsilon) {a : Aut W} (h : AutOK p a) :
    ∀ t ∈ keys a.edges, t.label ≠ epsilon := by
  intro t ht
  have := (h.valid t ht).2.1
  omega

end Verif

namespace Verif

open Product

variable {W : Type} [LinearOrder W] [Zero W]

/-- Acceptance with epsilon transitions. -/
abbrev ELang (a : Aut W) (c : Config) : Prop := EAccepted (· ∈ keys a.edges) (fun q => a.isAcc q = true) c

theorem connected_of_meets {p : Pda W} {a b A B : Aut W}
    (hA : ∀ q w, q < p.size → ELang A (q, w) → ∃ c, c.1 < p.size ∧
      Accepted (· ∈ keys a.edges) (fun q => a.isAcc q = true) c ∧ Reach p.Has c (q, w))
    (hB : ∀ q w, q < p.size → ELang B (q, w) → ∃ c, Reach p.Has (q, w) c ∧
      Accepted (· ∈ keys b.edges) (fun q => b.isAcc q = true) c) (h : Meets p.size A B) : Connected p a b := by
  obtain ⟨q, w, h1, h2, h3⟩ := h
  obtain ⟨c, h4, h5, h6⟩ := hA q w h1 h2
  obtain ⟨c', h7, h8⟩ := hB q w h1 h3
  exact ⟨c, c', h4, h5, h6.trans h7, h8⟩

theorem AutOK.lang {p : Pda W} (hl : p.nLabels ≤ epsilon) {a : Aut W} (h : AutOK p a) (c : Config) :
    ELang a c ↔ Accepted (· ∈ keys a.edges) (fun q => a.isAcc q = true) c := by
  constructor
  · rintro ⟨q, h1, h2⟩
    exact ⟨q, h1.toPath (h.noEps hl), h2⟩
  · rintro ⟨q, h1, h2⟩
    refine ⟨q, h1.toEPath ?_, h2⟩
    exact h1.labels (P := fun g => g ≠ epsilon) (fun t ht => h.noEps hl t ht)

/-- The automaton under pre*: no epsilon transitions, and sound. -/
theorem PreLoop.sound {σ : Type} {p : Pda W} (hp : p.WF) (hl : p.nLabels ≤ epsilon) {b : Aut W} (hb : AutOK p b)
    (hn : ∀ t ∈ keys b.edges, p.size ≤ t.dst) {s : PreSt W σ} (h : PreLoop p b s) (q : Nat) (w : List Nat)
    (hq : q < p.size) (hacc : ELang s.aut (q, w)) : ∃ c, Reach p.Has (q, w) c ∧
      Accepted (· ∈ keys b.edges) (fun q => b.isAcc q = true) c := by
  have hF : ∀ f, s.aut.isAcc f = b.isAcc f := by intro f; simp [Aut.isAcc, h.inv.acc]
  obtain ⟨f, h1, h2⟩ := hacc
  rw [hF] at h2
  refine pre_sound (F := fun q => b.isAcc q = true) hp hn h.inv.built q w hq ⟨f, h1.toPath ?_, h2⟩
  intro t ht
  have := (h.inv.valid hp hb t ht).2.1
  omega

theorem PreLoop.lang_mono {σ : Type} {p : Pda W} (hl : p.nLabels ≤ epsilon) {b : Aut W} (hb : AutOK p b)
    {s : PreSt W σ} (h : PreLoop p b s) (c : Config)
    (hacc : Accepted (· ∈ keys b.edges) (fun q => b.isAcc q = true) c) : ELang s.aut c := by
  obtain ⟨f, h1, h2⟩ := (hb.lang hl c).2 hacc
  exact ⟨f, h1.mono' (fun t ht => h.inv.built.mem_keys ht), by
    have : s.aut.isAcc f = b.isAcc f := by simp [Aut.isAcc, h.inv.acc]
    exact this.trans h2⟩

theorem PreLoop.complete {σ : Type} {p : Pda W} (hp : p.WF) (hk : p.LookupOK) (hl : p.nLabels ≤ epsilon) {b : Aut W} (hb : AutOK p b)
    {s : PreSt W σ} (h : PreLoop p b s) (hws : s.ws = []) {c c' : Config} (hr : Reach p.Has c c')
    (hacc : Accepted (· ∈ keys b.edges) (fun q => b.isAcc q = true) c') : ELang s.aut c := by
  obtain ⟨f, h1, h2⟩ := h.lang_mono hl hb c' hacc
  have hne : ∀ t ∈ keys s.aut.edges, t.label ≠ epsilon := by
    intro t ht
    have := (h.inv.valid hp hb t ht).2.1
    omega
  obtain ⟨f', h3, h4⟩ := (h.closed hp hk hb hws).reach hr ⟨f, h1.toPath hne, h2⟩
  exact ⟨f', h3.toEPath (h3.labels (P := fun g => g ≠ epsilon) hne), h4⟩

theorem PostInv.lang_mono {σ : Type} {p : Pda W} {a : Aut W} (ha : PostOK p a)
    {s : PostSt W σ} (h : PostInv p a s) (c : Config)
    (hacc : Accepted (· ∈ keys a.edges) (fun q => a.isAcc q = true) c) : ELang s.aut c := by
  obtain ⟨f, h1, h2⟩ := (ha.toAutOK.lang ha.labels c).2 hacc
  exact ⟨f, h1.mono' (fun t ht => h.built.mem_keys ht), (h.isAcc f).trans h2⟩

theorem PostInv.complete {σ : Type} {p : Pda W} (hp : p.WF) {a : Aut W} (ha : PostOK p a)
    {s : PostSt W σ} (h : PostInv p a s) (hws : s.ws = []) {c c' : Config} (hr : Reach p.Has c c')
    (hacc : Accepted (· ∈ keys a.edges) (fun q => a.isAcc q = true) c) : ELang s.aut c' :=
  (h.closed hp ha hws).reach hr (h.lang_mono ha c hacc)

theorem Product.Meets.symm {size : Nat} {A B : Aut W} (h : Meets size A B) : Meets size B A := by
  obtain ⟨p, w, h1, h2, h3⟩ := h
  exact ⟨p, w, h1, h3, h2⟩

namespace Instance

theorem postStarAccepts_spec (h : HashOrder) {p : Pda W} (hp : p.WF) {a b : Aut W} (ha : PostOK p a) (hb : AutOK p b) :
    let r := postStarAccepts h p (ofAutomata p.size a b)
    (r.2 = true ↔ Connected p a b) ∧ r.1.final = b ∧ (r.2 = true → Hit false p.size r.1.initial b r.1.prod) ∧
    (r.2 = false → Good false p.size r.1.initial b r.1.prod) ∧
    (r.1.initial = a ∨ ∃ e, PostInv p a (postStar h p (cbFirst h false b) a e) ∧
      r.1.initial = (postStar h p (cbFirst h false b) a e).aut) := by
  intro r
  have hr : r = postStarAccepts h p (ofAutomata p.size a b) := rfl
  unfold postStarAccepts ofAutomata at hr
  dsimp only at hr
  obtain ⟨i1, i2⟩ := init_good h (dual := false) (et := true) ha.toAutOK.inRange hb.inRange ha.size_le hb.size_le
  obtain ⟨g1, g2⟩ := i1.good ha.toAutOK.inRange hb.inRange i2
  generalize (Product.ofAutomata p.size a b).initProduct h false true a b = r0 at hr i1 i2 g1 g2
  cases hf : r0.2 with
  | true =>
    rw [hf, if_pos rfl] at hr
    rw [hr]
    refine ⟨⟨fun _ => ?_, fun _ => rfl⟩, rfl, fun _ => g1 hf, fun hc => by simp at hc, .inl rfl⟩
    refine connected_of_meets (fun q w hq hacc => ⟨(q, w), hq, (ha.toAutOK.lang ha.labels _).1 hacc, .refl⟩)
      (fun q w _ hacc => ⟨(q, w), .refl, (hb.lang ha.labels _).1 hacc⟩) (g1 hf).meets
  | false =>
    rw [hf] at hr
    simp only [Bool.false_eq_true, if_false] at hr
    obtain ⟨q1, q2, q3⟩ := qInit_same p a
    have hfo := postStar_found h hp ha
      (cbFirst_spec h false p.size (qInit p a).1.n b (V := PValid p (qInit p a).1.n) (fun t ht => ⟨ht.1, ht.2.2.1⟩))
      (e := r0.1) ⟨rfl, (g2 hf).mono q1 rfl q2 (fun _ => rfl) q3 (Nat.le_refl _)⟩
    have hinv := postStar_inv h hp ha (cbFirst h false b) r0.1
    have hdone := postStar_done h hp ha (cbFirst h false b) r0.1
    rw [hr]
    dsimp only
    refine ⟨?_, rfl, hfo.2, fun hc => (hfo.1 hc).2, .inr ⟨r0.1, hinv, rfl⟩⟩
    constructor
    · intro h1
      exact connected_of_meets (post_sound hp ha hinv)
        (fun q w _ hacc => ⟨(q, w), .refl, (hb.lang ha.labels _).1 hacc⟩) (hfo.2 h1).meets
    · rintro ⟨c, c', h1, h2, h3, h4⟩
      by_contra hc
      have hc : (postStar h p (cbFirst h false b) a r0.1).found = false := by simpa using hc
      have hws := hdone.resolve_right (by rw [hc]; simp)
      exact (hfo.1 hc).2.not_meets ⟨c'.1, c'.2, reach_lt hp h3 h1, hinv.complete hp ha hws h3 h2, (hb.lang ha.labels _).2 h4⟩

theorem preStarAccepts_spec (h : HashOrder) {p : Pda W} (hp : p.WF) (hl : p.nLabels ≤ epsilon)
    {a b : Aut W} (ha : AutOK p a) (hb : AutOK p b) (hn : ∀ t ∈ keys b.edges, p.size ≤ t.dst) :
    let r := preStarAccepts h p (ofAutomata p.size a b)
    ((r.2 = true → Connected p a b) ∧ (p.LookupOK → Connected p a b → r.2 = true)) ∧ r.1.initial = a ∧ (r.2 = true → Hit false p.size r.1.final a r.1.prod) ∧
    (r.2 = false → Good false p.size r.1.final a r.1.prod) ∧
    (r.1.final = b ∨ ∃ e, PreLoop p b (preStar h p (cbFirst h false a) b e) ∧
      r.1.final = (preStar h p (cbFirst h false a) b e).aut) := by
  intro r
  have hr : r = preStarAccepts h p (ofAutomata p.size a b) := rfl
  unfold preStarAccepts ofAutomata at hr
  dsimp only at hr
  rw [Product.ofAutomata_comm] at hr
  obtain ⟨i1, i2⟩ := init_good h (dual := false) (et := true) hb.inRange ha.inRange hb.size_le ha.size_le
  obtain ⟨g1, g2⟩ := i1.good hb.inRange ha.inRange i2
  generalize (Product.ofAutomata p.size b a).initProduct h false true b a = r0 at hr i1 i2 g1 g2
  cases hf : r0.2 with
  | true =>
    rw [hf, if_pos rfl] at hr
    rw [hr]
    refine ⟨⟨fun _ => ?_, fun _ _ => rfl⟩, rfl, fun _ => g1 hf, fun hc => by simp at hc, .inl rfl⟩
    refine connected_of_meets (fun q w hq hacc => ⟨(q, w), hq, (ha.lang hl _).1 hacc, .refl⟩)
      (fun q w _ hacc => ⟨(q, w), .refl, (hb.lang hl _).1 hacc⟩) (g1 hf).meets.symm
  | false =>
    rw [hf] at hr
    simp only [Bool.false_eq_true, if_false] at hr
    have hfo := preStar_found h hp hb
      (cbFirst_spec h false p.size b.n a (V := Valid p b.n) (fun t ht => ⟨ht.1, ht.2.2⟩)) (e := r0.1) ⟨rfl, g2 hf⟩
    have hinv := preStar_loop h hp hb (cbFirst h false a) r0.1
    have hdone := preStar_done h hp hb (cbFirst h false a) r0.1
    rw [hr]
    dsimp only
    refine ⟨?_, rfl, hfo.2, fun hc => (hfo.1 hc).2, .inr ⟨r0.1, hinv, rfl⟩⟩
    constructor
    · intro h1
      exact connected_of_meets (fun q w hq hacc => ⟨(q, w), hq, (ha.lang hl _).1 hacc, .refl⟩)
        (hinv.sound hp hl hb hn) (hfo.2 h1).meets.symm
    · rintro hk ⟨c, c', h1, h2, h3, h4⟩
      by_contra hc
      have hc : (preStar h p (cbFirst h false a) b r0.1).found = false := by simpa using hc
      have hws := hdone.resolve_right (by rw [hc]; simp)
      exact (hfo.1 hc).2.not_meets ⟨c.1, c.2, h1, hinv.complete hp hk hl hb hws h3 h4, (ha.lang hl _).2 h2⟩

theorem dualSearchAccepts_spec (h : HashOrder) {p : Pda W} (hp : p.WF) {a b : Aut W} (ha : PostOK p a)
    (hb : AutOK p b) (hn : ∀ t ∈ keys b.edges, p.size ≤ t.dst) :
    let r := dualSearchAccepts h p (ofAutomata p.size a b)
    ((r.2 = true → Connected p a b) ∧ (p.LookupOK → Connected p a b → r.2 = true)) ∧ (r.2 = true → Hit true p.size r.1.initial r.1.final r.1.prod) ∧
    (r.2 = false → Good true p.size r.1.initial r.1.final r.1.prod) ∧
    ((r.1.initial = a ∧ r.1.final = b) ∨ ∃ d, Dual.DInv p a b d ∧ r.1.initial = d.post.aut ∧ r.1.final = d.pre.aut) := by
  intro r
  have hr : r = dualSearchAccepts h p (ofAutomata p.size a b) := rfl
  have hl := ha.labels
  unfold dualSearchAccepts ofAutomata at hr
  dsimp only at hr
  obtain ⟨i1, i2⟩ := init_good h (dual := true) (et := true) ha.toAutOK.inRange hb.inRange ha.size_le hb.size_le
  obtain ⟨g1, g2⟩ := i1.good ha.toAutOK.inRange hb.inRange i2
  generalize (Product.ofAutomata p.size a b).initProduct h true true a b = r0 at hr i1 i2 g1 g2
  cases hf : r0.2 with
  | true =>
    rw [hf, if_pos rfl] at hr
    rw [hr]
    refine ⟨⟨fun _ => ?_, fun _ _ => rfl⟩, fun _ => g1 hf, fun hc => by simp at hc, .inl ⟨rfl, rfl⟩⟩
    refine connected_of_meets (fun q w hq hacc => ⟨(q, w), hq, (ha.toAutOK.lang hl _).1 hacc, .refl⟩)
      (fun q w _ hacc => ⟨(q, w), .refl, (hb.lang hl _).1 hacc⟩) (g1 hf).meets
  | false =>
    rw [hf] at hr
    simp only [Bool.false_eq_true, if_false] at hr
    have hst := Dual.start_inv h hp (i := ⟨a, b, Product.ofAutomata p.size a b⟩) ha hb (g2 hf)
    dsimp only at hst
    have hme : (Dual.start h p ⟨a, b, Product.ofAutomata p.size a b⟩ r0.1).post.ws.length +
        (postFuel p (Dual.start h p ⟨a, b, Product.ofAutomata p.size a b⟩ r0.1).post -
          (Dual.start h p ⟨a, b, Product.ofAutomata p.size a b⟩ r0.1).post.aut.edges.length) ≤
        postFuel p (Dual.start h p ⟨a, b, Product.ofAutomata p.size a b⟩ r0.1).post := by
      unfold Dual.start
      dsimp only
      obtain ⟨h1, _, _, h2, h3⟩ := postInit_inv h ha (preInit h p (cbSecond h a) b r0.1).ext
      have h4 := h1.edges_le hp ha
      rw [h2] at *
      omega
    obtain ⟨d1, d2⟩ := Dual.run_spec h hp ha hb _ hst hme
    generalize Dual.run h p (postFuel p (Dual.start h p ⟨a, b, Product.ofAutomata p.size a b⟩ r0.1).post)
      (Dual.start h p ⟨a, b, Product.ofAutomata p.size a b⟩ r0.1) = d at *
    rw [hr]
    dsimp only
    refine ⟨?_, d1.hit, d1.good, .inr ⟨d, d1, rfl, rfl⟩⟩
    constructor
    · intro h1
      exact connected_of_meets (post_sound hp ha d1.post) (d1.pre.sound hp hl hb hn) (d1.hit h1).meets
    · rintro hk ⟨c, c', h1, h2, h3, h4⟩
      by_contra hc
      have hc : d.found = false := by simpa using hc
      rcases d2 with h5 | h5 | h5
      · rw [hc] at h5; simp at h5
      · exact (d1.good hc).not_meets ⟨c.1, c.2, h1, d1.post.lang_mono ha c h2, d1.pre.complete hp hk hl hb h5 h3 h4⟩
      · exact (d1.good hc).not_meets ⟨c'.1, c'.2, reach_lt hp h3 h1, d1.post.complete hp ha h5 h3 h2,
          d1.pre.lang_mono hl hb c' h4⟩

theorem postStarAcceptsNoET_spec (h : HashOrder) {p : Pda W} (hp : p.WF) {a b : Aut W} (ha : PostOK p a) (hb : AutOK p b) :
    let r := postStarAcceptsNoET h p (ofAutomata p.size a b)
    (r.2 = true ↔ Connected p a b) ∧ r.1.prod.size = p.size ∧ PInv false r.1.initial b r.1.prod ∧
      Complete r.1.initial b r.1.prod (fun _ => True) ∧ r.2 = r.1.prod.hasAcc ∧
      r.1.initial = (postStar h p noCb a ()).aut := by
  intro r
  have hinv := postStar_inv h hp ha noCb ()
  have hws : (postStar h p noCb a ()).ws = [] := by
    have hf : (postStar h p noCb a ()).found = false := by
      have := (postStar_found h hp ha (noCb_spec _) (e := ()) trivial).2
      simpa using this
    exact (postStar_done h hp ha noCb ()).resolve_right (by simp [hf])
  have hr : r = postStarAcceptsNoET h p (ofAutomata p.size a b) := rfl
  unfold postStarAcceptsNoET ofAutomata at hr
  dsimp only at hr
  have hv := hinv.valid hp ha
  have hle := hinv.le
  have hiA := hinv.isAcc
  have hso := post_sound hp ha hinv
  have hco := fun {c c'} hr hacc => hinv.complete hp ha hws (c := c) (c' := c') hr hacc
  generalize (postStar h p noCb a ()).aut = A at *
  have hA : InRange A := fun t ht => ⟨(hv t ht).1, (hv t ht).2.2.1⟩
  have hpi : PInv false A b (Product.ofAutomata p.size a b) :=
    (Product.ofAutomata_inv false ha.size_le hb.size_le) |> fun h0 => by
      have h1 : Product.ofAutomata p.size a b = Product.ofAutomata p.size A b := by
        unfold Product.ofAutomata
        congr 2
        apply List.filter_congr
        intro i _
        rw [hiA]
      rw [h1]
      exact Product.ofAutomata_inv false (Nat.le_trans ha.size_le hle) hb.size_le
  obtain ⟨j1, j2⟩ := initProduct_spec (et := false) h hA hb.inRange hpi
  generalize (Product.ofAutomata p.size a b).initProduct h false false A b = r0 at *
  have hsz : r0.1.size = p.size := j2.size
  rw [hr]
  refine ⟨?_, hsz, j1.inv, j1.complete (.inl rfl), j1.flag, rfl⟩
  dsimp only
  rw [j1.iff, hsz]
  constructor
  · exact connected_of_meets hso (fun q w _ hacc => ⟨(q, w), .refl, (hb.lang ha.labels _).1 hacc⟩)
  · rintro ⟨c, c', h1, h2, h3, h4⟩
    exact ⟨c'.1, c'.2, reach_lt hp h3 h1, hco h3 h2, (hb.lang ha.labels _).2 h4⟩

end Instance

end Verif
