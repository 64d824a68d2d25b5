/-
What the steps of the construction do to the state of the wires.
-/
import Verif.ZX.BuildSem

set_option autoImplicit false

noncomputable section

open Classical

open Function (update)

namespace MQT.ZX

open MQT.IR

open Diagram hiding phase

namespace Build

/-! ### Global phases -/

theorem graph_gphase (D : Diagram) (p : Phase) : graph { D with globalPhase := p } = graph D := rfl

theorem does_gphase {n : ℕ} (φ : Phase) : Does n (gphase φ) fun ρ => phase (φ.u ρ) where
  hom ρ c ψ := by rw [phase_phase, phase_phase, mul_comm]
  step b b' h e := by
    injection e with e
    subst e
    have hinv : ({ b.D with globalPhase := b.D.globalPhase.add φ } : Diagram).Inv :=
      ⟨h.good.inv.out, h.good.inv.del, h.good.inv.nodup, h.good.inv.nv, h.good.inv.ne, h.good.inv.sym, h.good.inv.nb⟩
    refine ⟨⟨⟨hinv, h.good.simple, h.good.bd, h.good.range⟩, h.len, h.alive, h.inj, h.tips, h.inputs, h.outputs, h.out⟩,
      1, one_pos, fun ρ β => ?_⟩
    rw [Complex.ofReal_one, phase_one]
    funext y
    show Phase.u ρ (b.D.globalPhase.add φ) * _ = φ.u ρ * (Phase.u ρ b.D.globalPhase * _)
    rw [Phase.u_add, mul_comm (Phase.u ρ b.D.globalPhase), mul_assoc]
    rfl

/-! ### Spiders on a wire -/

/-- The effect of a new spider on wire `q`. -/
structure Grown (n : ℕ) (c : VType) (q : ℕ) (φ : Phase) (t : EType) (b b' : Build) : Prop where
  lt : q < n
  wb : b'.WB n
  new : ¬ b.D.Alive (b'.tip q)
  ty : (graph b'.D).ty (b'.tip q) = c
  tip : ∀ r, r ≠ q → b'.tip r = b.tip r
  tyo : ∀ v, b.D.Alive v → (graph b'.D).ty v = (graph b.D).ty v
  apart : ∀ v, v ≠ b.tip q → v ≠ b'.tip q → (graph b'.D).total (b'.tip q) v = 0
  lin : ∀ ρ f β, b'.D.lin ρ f β = b.D.lin ρ (fun x =>
    ew t ((graph b.D).ty (b.tip q)) c (x (b.tip q)) false * f (update x (b'.tip q) false) +
      φ.u ρ * (ew t ((graph b.D).ty (b.tip q)) c (x (b.tip q)) true * f (update x (b'.tip q) true))) β

theorem spider_ok {n : ℕ} {c : VType} {q : ℕ} {t : EType} {b b' : Build} {φ : Phase}
    (h : b.WB n) (e : spider c q φ t b = .ok b') : q < n ∧ ∃ D2,
      (b.D.addVertex ⟨q, φ, c⟩).1.addEdge (b.tip q) (b.D.addVertex ⟨q, φ, c⟩).2 t = some D2 ∧
      b' = ⟨D2, b.qs.set q (b.D.addVertex ⟨q, φ, c⟩).2⟩ := by
  unfold spider at e
  obtain ⟨v, e1, e2⟩ := bind_ok e
  obtain ⟨hq, rfl⟩ := lt_of_lift h e1
  obtain ⟨d, hd⟩ := h.alive q hq
  rw [if_pos (h.good.inv.lt ⟨d, hd⟩), hd] at e2
  simp only at e2
  obtain ⟨D2, e3, e4⟩ := bind_ok e2
  refine ⟨hq, D2, ?_, ?_⟩
  · cases hx : (b.D.addVertex ⟨q, φ, c⟩).1.addEdge (b.tip q) (b.D.addVertex ⟨q, φ, c⟩).2 t with
    | some a => rw [hx] at e3; injection e3 with e3; rw [e3]
    | none => rw [hx] at e3; cases e3
  · injection e4 with e4
    exact e4.symm

theorem spider_grown {n : ℕ} {c : VType} (hc : c ≠ .boundary) {q : ℕ} {φ : Phase} (hφ : φ.const.InRange) {t : EType}
    {b b' : Build} (h : b.WB n) (e : spider c q φ t b = .ok b') : Grown n c q φ t b b' := by
  obtain ⟨hq, D2, e1, rfl⟩ := spider_ok h e
  have sv := addVertex_addV h.good.inv ⟨q, φ, c⟩
  set D1 := (b.D.addVertex ⟨q, φ, c⟩).1
  set w := (b.D.addVertex ⟨q, φ, c⟩).2
  have av := h.alive q hq
  have hvw : b.tip q ≠ w := sv.ne_of_alive av
  have av1 : D1.Alive (b.tip q) := (sv.alive _).2 (.inr av)
  have aw1 : D1.Alive w := (sv.alive _).2 (.inl rfl)
  have se := addEdge_addE sv.inv av1 aw1 hvw e1
  have hl : q < b.qs.length := by rw [h.len]; exact hq
  have htip : ∀ r, (⟨D2, b.qs.set q w⟩ : Build).tip r = if r = q then w else b.tip r := fun r => by
    rw [tip_set hl]; rfl
  have hq' : (⟨D2, b.qs.set q w⟩ : Build).tip q = w := by rw [htip, if_pos rfl]
  have hty1 : (graph D1).ty w = c := sv.ty_new
  have hty2 : ∀ v, v ≠ w → (graph D2).ty v = (graph b.D).ty v := fun v hv => by rw [se.ty, sv.ty_old hv]
  have h0 : (graph D1).total (b.tip q) w = 0 := by rw [graph_total_symm sv.inv, sv.total_new]
  have good1 : D1.Good := sv.good h.good hφ
  have good2 : D2.Good := by
    refine se.good good1 h0 ?_ ?_ hvw
    · intro hb a
      rw [sv.total]
      exact h.tips q hq (by rwa [sv.ty_old hvw] at hb) a
    · intro hb
      rw [hty1] at hb
      exact absurd hb hc
  have hne : ∀ r < n, b.tip r ≠ w := fun r hr => sv.ne_of_alive (h.alive r hr)
  refine ⟨hq, ⟨good2, ?_, ?_, ?_, ?_, ?_, ?_, ?_⟩, ?_, ?_, ?_, ?_, ?_, ?_⟩
  · simp only [List.length_set]; exact h.len
  · intro r hr
    rw [htip]
    show D2.Alive _
    rw [se.alive, sv.alive]
    split_ifs
    · exact .inl rfl
    · exact .inr (h.alive r hr)
  · intro r hr s hs hrs
    rw [htip, htip] at hrs
    split_ifs at hrs with h1 h2 h2
    · rw [h1, h2]
    · exact absurd hrs.symm (hne s hs)
    · exact absurd hrs (hne r hr)
    · exact h.inj r hr s hs hrs
  · intro r hr hb a
    rw [htip] at hb ⊢
    change (graph D2).ty _ = _ at hb
    show (graph D2).total _ _ = 0
    split_ifs at hb ⊢ with h1
    · rw [se.ty, hty1] at hb
      exact absurd hb hc
    · rw [hty2 _ (hne r hr)] at hb
      rw [se.total, if_neg, sv.total]
      · exact h.tips r hr hb a
      · rintro (⟨h2, _⟩ | ⟨h2, _⟩)
        · exact h1 (h.inj r hr q hq h2)
        · exact hne r hr h2
  · show D2.inputs = _
    rw [se.inputs, sv.inputs, h.inputs]
  · show D2.outputs = _
    rw [se.outputs, sv.outputs, h.outputs]
  · intro i hi
    obtain ⟨o1, o2, o3, o4⟩ := h.out i hi
    have ho : n + i ≠ w := sv.ne_of_alive o1
    refine ⟨?_, ?_, ?_, ?_⟩
    · show D2.Alive _
      rw [se.alive, sv.alive]; exact .inr o1
    · show (graph D2).ty _ = _
      rw [hty2 _ ho, o2]
    · intro a
      show (graph D2).total _ _ = _
      rw [se.total, if_neg, sv.total, o3]
      rintro (⟨h2, _⟩ | ⟨h2, _⟩)
      · exact o4 q hq h2.symm
      · exact ho h2
    · intro r hr
      rw [htip]
      split_ifs
      · exact ho.symm
      · exact o4 r hr
  · rw [hq']; exact sv.new
  · rw [hq']
    show (graph D2).ty w = c
    rw [se.ty, hty1]
  · intro r hr
    rw [htip, if_neg hr]
  · intro v hv
    exact hty2 v (sv.ne_of_alive hv)
  · intro v h1 h2
    rw [hq'] at h2 ⊢
    show (graph D2).total w v = 0
    rw [se.total, if_neg, sv.total_new]
    rintro (⟨h3, _⟩ | ⟨_, h3⟩)
    · exact hvw h3.symm
    · exact h1 h3
  · intro ρ f β
    show D2.lin ρ f β = _
    rw [se.lin sv.inv av1 aw1 hvw, sv.lin h.good.inv hc]
    apply lin_congr
    intro x
    rw [hty1, sv.ty_old hvw, hq']
    simp only [Function.update_self, Function.update_of_ne hvw]

/-- The matrix of a spider with phase `u`, between two edges, the first of type `t`. -/
def spiderMat (c : VType) (t : EType) (u : ℂ) : Mat1 := fun o s =>
  ew t .boundary c s false * ew .simple c .boundary false o + u * (ew t .boundary c s true * ew .simple c .boundary true o)

theorem app1_hom (M : Mat1) (q : ℕ) (c : ℂ) (ψ : State) : app1 M q (phase c ψ) = phase c (app1 M q ψ) := by
  funext y
  unfold app1 phase
  rw [Finset.mul_sum]
  apply Finset.sum_congr rfl
  intro s _
  ring

/-- The factors of the wires other than `q`. -/
def rest (n : ℕ) (b : Build) (x : ℕ → Bool) (y : Bits) (q : ℕ) : ℂ := ∏ r ∈ (Finset.range n).erase q, b.open1 x y r

theorem prod_open {n : ℕ} (b : Build) (x : ℕ → Bool) (y : Bits) {q : ℕ} (hq : q < n) :
    ∏ r ∈ Finset.range n, b.open1 x y r = b.open1 x y q * b.rest n x y q :=
  (Finset.mul_prod_erase _ _ (Finset.mem_range.2 hq)).symm

theorem does_spider {n : ℕ} {c : VType} (hc : c ≠ .boundary) (q : ℕ) {φ : Phase} (hφ : φ.const.InRange) (t : EType) :
    Does n (spider c q φ t) fun ρ => app1 (spiderMat c t (φ.u ρ)) q where
  hom ρ := app1_hom _ _
  step b b' h e := by
    have g := spider_grown hc hφ h e
    refine ⟨g.wb, if odd .simple .boundary ((graph b.D).ty (b.tip q)) && odd t .boundary c then 1 / 2 else 1,
      by split_ifs <;> norm_num, fun ρ β => ?_⟩
    funext y
    have hne : ∀ r < n, b.tip r ≠ b'.tip q := fun r hr hrq => g.new (hrq ▸ h.alive r hr)
    have ho : ∀ x p, b'.open1 (update x (b'.tip q) p) y q = ew .simple c .boundary p (y q) := by
      intro x p
      unfold open1
      rw [g.ty, Function.update_self]
    have hr : ∀ x p s, b'.rest n (update x (b'.tip q) p) y q = b.rest n x (update y q s) q := by
      intro x p s
      unfold rest
      apply Finset.prod_congr rfl
      intro r hr
      obtain ⟨h1, h2⟩ := Finset.mem_erase.1 hr
      rw [Finset.mem_range] at h2
      unfold open1
      rw [g.tip r h1, g.tyo _ (h.alive r h2), Function.update_of_ne (hne r h2), Function.update_of_ne h1]
    have hs : ∀ x s, b.open1 x (update y q s) q = ew .simple ((graph b.D).ty (b.tip q)) .boundary (x (b.tip q)) s := by
      intro x s
      unfold open1
      rw [Function.update_self]
    have hA : ∀ s, b.amp n ρ β (update y q s) =
        b.D.lin ρ (fun x => ew .simple ((graph b.D).ty (b.tip q)) .boundary (x (b.tip q)) s * b.rest n x (update y q s) q) β := by
      intro s
      unfold amp
      apply lin_congr
      intro x
      rw [prod_open b x _ g.lt, hs]
    have hR : ∀ x s, b.rest n x (update y q s) q = b.rest n x (update y q false) q := fun x s => by
      rw [← hr x false s, ← hr x false false]
    show b'.D.lin ρ (fun x => ∏ r ∈ Finset.range n, b'.open1 x y r) β = _
    rw [g.lin]
    unfold phase app1
    rw [Fintype.sum_bool, hA, hA, ← lin_smul, ← lin_smul, ← lin_add, ← lin_smul]
    apply lin_congr
    intro x
    rw [prod_open b' _ y g.lt, prod_open b' _ y g.lt, ho, ho, hr x false false, hr x true false, hR x true]
    unfold spiderMat
    have k0 := ew_sum .simple t .boundary ((graph b.D).ty (b.tip q)) c (x (b.tip q)) false
    have k1 := ew_sum .simple t .boundary ((graph b.D).ty (b.tip q)) c (x (b.tip q)) true
    have ht : (if EType.simple ≠ t then EType.hadamard else .simple) = t := by cases t <;> simp
    rw [ht] at k0 k1
    rw [ew_comm .simple ((graph b.D).ty (b.tip q)) .boundary _ true, ew_comm .simple ((graph b.D).ty (b.tip q)) .boundary _ false]
    generalize ew EType.simple VType.boundary ((graph b.D).ty (b.tip q)) true (x (b.tip q)) = A1 at *
    generalize ew EType.simple VType.boundary ((graph b.D).ty (b.tip q)) false (x (b.tip q)) = A0 at *
    have hk : (((if (odd EType.simple VType.boundary ((graph b.D).ty (b.tip q)) && odd t VType.boundary c) = true then 1 / 2 else 1 : ℝ) : ℝ) : ℂ) *
      (if (odd EType.simple VType.boundary ((graph b.D).ty (b.tip q)) && odd t VType.boundary c) = true then 2 else 1) = 1 := by
      split_ifs <;> norm_num
    generalize (((if (odd EType.simple VType.boundary ((graph b.D).ty (b.tip q)) && odd t VType.boundary c) = true then 1 / 2 else 1 : ℝ) : ℝ) : ℂ) = K at *
    generalize (if (odd EType.simple VType.boundary ((graph b.D).ty (b.tip q)) && odd t VType.boundary c) = true then (2 : ℂ) else 1) = K' at *
    generalize ew t ((graph b.D).ty (b.tip q)) c (x (b.tip q)) true = E1 at *
    generalize ew t ((graph b.D).ty (b.tip q)) c (x (b.tip q)) false = E0 at *
    generalize b.rest n x (update y q false) q = R
    linear_combination (-(K * R)) * (ew EType.simple c .boundary false (y q)) * k0 - K * R * φ.u ρ * (ew EType.simple c .boundary true (y q)) * k1 - (R * E0 * ew EType.simple c .boundary false (y q) + R * φ.u ρ * E1 * ew EType.simple c .boundary true (y q)) * hk

theorem zMat (u : ℂ) : spiderMat .z .simple u = mat1 1 0 0 u := by
  apply mat1_ext <;> simp [spiderMat, ew, odd, mat1]

theorem xMat (u : ℂ) : spiderMat .x .simple u = mat1 (1 + u) (1 - u) (1 - u) (1 + u) := by
  apply mat1_ext <;> simp [spiderMat, ew, odd, mat1] <;> ring

theorem hMat (u : ℂ) : spiderMat .z .hadamard u = mat1 1 1 u (-u) := by
  apply mat1_ext <;> simp [spiderMat, ew, odd, mat1]

theorem does_z {n : ℕ} (q : ℕ) {φ : Phase} (hφ : φ.const.InRange) :
    Does n (zSpider q φ) fun ρ => app1 (mat1 1 0 0 (φ.u ρ)) q := by
  have := does_spider (n := n) (c := .z) (by decide) q hφ .simple
  simp only [zMat] at this
  exact this

theorem does_x {n : ℕ} (q : ℕ) {φ : Phase} (hφ : φ.const.InRange) :
    Does n (xSpider q φ) fun ρ => app1 (mat1 (1 + φ.u ρ) (1 - φ.u ρ) (1 - φ.u ρ) (1 + φ.u ρ)) q := by
  have := does_spider (n := n) (c := .x) (by decide) q hφ .simple
  simp only [xMat] at this
  exact this

theorem zero_inRange : Phase.zero.const.InRange := ⟨by simp [Phase.zero], by simp [Phase.zero]⟩

theorem does_h {n : ℕ} (q : ℕ) : Does n (zSpider q Phase.zero .hadamard) fun _ => app1 (mat1 1 1 1 (-1)) q := by
  have := does_spider (n := n) (c := .z) (by decide) q zero_inRange .hadamard
  simp only [hMat, Phase.u_zero] at this
  exact this

/-! ### Changes that keep the invariant -/

/-- A new spider that is on no wire. -/
theorem WB.addV {n : ℕ} {b : Build} {D1 : Diagram} {w : ℕ} {d : VData} (h : b.WB n) (s : AddV b.D D1 w d)
    (hr : d.phase.const.InRange) : (⟨D1, b.qs⟩ : Build).WB n where
  good := s.good h.good hr
  len := h.len
  alive q hq := (s.alive _).2 (.inr (h.alive q hq))
  inj := h.inj
  tips q hq hb a := by
    show (graph D1).total (b.tip q) a = 0
    rw [s.total]
    exact h.tips q hq (by rw [← s.ty_old (s.ne_of_alive (h.alive q hq))]; exact hb) a
  inputs := s.inputs.trans h.inputs
  outputs := s.outputs.trans h.outputs
  out i hi := by
    obtain ⟨o1, o2, o3, o4⟩ := h.out i hi
    exact ⟨(s.alive _).2 (.inr o1), (s.ty_old (s.ne_of_alive o1)).trans o2, fun a => (s.total _ a).trans (o3 a), o4⟩

/-- A new edge between spiders. -/
theorem WB.addE {n : ℕ} {b : Build} {D1 : Diagram} {u v : ℕ} {t : EType} (h : b.WB n) (s : AddE b.D D1 u v t)
    (hu : (graph b.D).ty u ≠ .boundary) (hv : (graph b.D).ty v ≠ .boundary) (h0 : (graph b.D).total u v = 0) (huv : u ≠ v) :
    (⟨D1, b.qs⟩ : Build).WB n where
  good := s.good h.good h0 (fun hb => absurd hb hu) (fun hb => absurd hb hv) huv
  len := h.len
  alive q hq := (s.alive _).2 (h.alive q hq)
  inj := h.inj
  tips q hq hb a := by
    have hb' : (graph b.D).ty (b.tip q) = .boundary := by rw [← s.ty]; exact hb
    show (graph D1).total (b.tip q) a = 0
    rw [s.total, if_neg]
    · exact h.tips q hq hb' a
    · rintro (⟨h1, _⟩ | ⟨h1, _⟩)
      · exact hu (h1 ▸ hb')
      · exact hv (h1 ▸ hb')
  inputs := s.inputs.trans h.inputs
  outputs := s.outputs.trans h.outputs
  out i hi := by
    obtain ⟨o1, o2, o3, o4⟩ := h.out i hi
    refine ⟨(s.alive _).2 o1, (s.ty _).trans o2, fun a => ?_, o4⟩
    show (graph D1).total (n + i) a = 0
    rw [s.total, if_neg, o3]
    rintro (⟨h1, _⟩ | ⟨h1, _⟩)
    · exact hu (h1 ▸ o2)
    · exact hv (h1 ▸ o2)

/-- Wires may be exchanged. -/
theorem WB.exchange {n : ℕ} {b : Build} (h : b.WB n) {q0 q1 : ℕ} (h0 : q0 < n) (h1 : q1 < n) :
    (⟨b.D, (b.qs.set q1 (b.tip q0)).set q0 (b.tip q1)⟩ : Build).WB n := by
  have htip : ∀ r, (⟨b.D, (b.qs.set q1 (b.tip q0)).set q0 (b.tip q1)⟩ : Build).tip r =
      if r = q0 then b.tip q1 else if r = q1 then b.tip q0 else b.tip r := by
    intro r
    rw [tip_set (by rw [List.length_set, h.len]; exact h0)]
    split_ifs with hr hr'
    · rfl
    · have := tip_set (D := b.D) (qs := b.qs) (q := q1) (w := b.tip q0) (by rw [h.len]; exact h1) r
      rw [if_pos hr'] at this
      exact this
    · have := tip_set (D := b.D) (qs := b.qs) (q := q1) (w := b.tip q0) (by rw [h.len]; exact h1) r
      rw [if_neg hr'] at this
      exact this
  have hperm : ∀ r < n, ∃ s < n, (⟨b.D, (b.qs.set q1 (b.tip q0)).set q0 (b.tip q1)⟩ : Build).tip r = b.tip s := by
    intro r hr
    rw [htip]
    split_ifs
    · exact ⟨q1, h1, rfl⟩
    · exact ⟨q0, h0, rfl⟩
    · exact ⟨r, hr, rfl⟩
  refine ⟨h.good, ?_, ?_, ?_, ?_, h.inputs, h.outputs, ?_⟩
  · simp only [List.length_set]; exact h.len
  · intro r hr
    obtain ⟨s, hs, e⟩ := hperm r hr
    rw [e]; exact h.alive s hs
  · intro r hr s hs e
    have J := h.inj
    rw [htip, htip] at e
    split_ifs at e with a1 a2 a3 a4 a5 a6 a7 a8
    · rw [a1, a2]
    · rw [a1, a3, J q1 h1 q0 h0 e]
    · exact absurd (J q1 h1 s hs e).symm a3
    · rw [a4, a5, J q0 h0 q1 h1 e]
    · rw [a4, a6]
    · exact absurd (J q0 h0 s hs e).symm a5
    · exact absurd (J r hr q1 h1 e) a4
    · exact absurd (J r hr q0 h0 e) a1
    · exact J r hr s hs e
  · intro r hr hb a
    obtain ⟨s, hs, e⟩ := hperm r hr
    rw [e] at hb ⊢
    exact h.tips s hs hb a
  · intro i hi
    obtain ⟨o1, o2, o3, o4⟩ := h.out i hi
    refine ⟨o1, o2, o3, fun r hr => ?_⟩
    obtain ⟨s, hs, e⟩ := hperm r hr
    rw [e]; exact o4 s hs

/-- A wire may be extended by an isolated spider. -/
theorem WB.extend {n : ℕ} {b : Build} {D1 : Diagram} {w : ℕ} {t : EType} {q : ℕ} (h : b.WB n) (hq : q < n)
    (s : AddE b.D D1 (b.tip q) w t) (hw : (graph b.D).ty w ≠ .boundary) (h0 : ∀ a, (graph b.D).total w a = 0)
    (hn : ∀ r < n, b.tip r ≠ w) : (⟨D1, b.qs.set q w⟩ : Build).WB n := by
  have htip : ∀ r, (⟨D1, b.qs.set q w⟩ : Build).tip r = if r = q then w else b.tip r := fun r => by
    rw [tip_set (by rw [h.len]; exact hq)]; rfl
  refine ⟨?_, ?_, ?_, ?_, ?_, s.inputs.trans h.inputs, s.outputs.trans h.outputs, ?_⟩
  · refine s.good h.good ?_ ?_ (fun hb => absurd hb hw) (hn q hq)
    · rw [graph_total_symm h.good.inv, h0]
    · exact h.tips q hq
  · simp only [List.length_set]; exact h.len
  · intro r hr
    rw [htip]
    show D1.Alive _
    rw [s.alive]
    split_ifs
    · exact alive_of_inner hw
    · exact h.alive r hr
  · intro r hr s hs e
    rw [htip, htip] at e
    split_ifs at e with a1 a2 a2
    · rw [a1, a2]
    · exact absurd e.symm (hn s hs)
    · exact absurd e (hn r hr)
    · exact h.inj r hr s hs e
  · intro r hr hb a
    rw [htip] at hb ⊢
    change (graph D1).ty _ = _ at hb
    show (graph D1).total _ _ = 0
    rw [s.ty] at hb
    split_ifs at hb ⊢ with h1
    · exact absurd hb hw
    · rw [s.total, if_neg]
      · exact h.tips r hr hb a
      · rintro (⟨h2, _⟩ | ⟨h2, _⟩)
        · exact h1 (h.inj r hr q hq h2)
        · exact hn r hr h2
  · intro i hi
    obtain ⟨o1, o2, o3, o4⟩ := h.out i hi
    refine ⟨(s.alive _).2 o1, (s.ty _).trans o2, fun a => ?_, fun r hr => ?_⟩
    · show (graph D1).total (n + i) a = 0
      rw [s.total, if_neg, o3]
      rintro (⟨h2, _⟩ | ⟨h2, _⟩)
      · exact o4 q hq h2.symm
      · exact hw (h2 ▸ o2)
    · rw [htip]
      split_ifs
      · intro e; exact hw (e ▸ o2)
      · exact o4 r hr

/-! ### Two wires -/

theorem app2_hom (M : Mat2) (q0 q1 : ℕ) (c : ℂ) (ψ : State) : app2 M q0 q1 (phase c ψ) = phase c (app2 M q0 q1 ψ) := by
  funext y
  unfold app2 phase
  rw [Finset.mul_sum]
  apply Finset.sum_congr rfl
  intro s _
  ring

/-- The factors of the wires other than `q0`, `q1`. -/
def rest2 (n : ℕ) (b : Build) (x : ℕ → Bool) (y : Bits) (q0 q1 : ℕ) : ℂ :=
  ∏ r ∈ ((Finset.range n).erase q0).erase q1, b.open1 x y r

theorem prod_open2 {n : ℕ} (b : Build) (x : ℕ → Bool) (y : Bits) {q0 q1 : ℕ} (h0 : q0 < n) (h1 : q1 < n) (hne : q0 ≠ q1) :
    ∏ r ∈ Finset.range n, b.open1 x y r = b.open1 x y q0 * (b.open1 x y q1 * b.rest2 n x y q0 q1) := by
  rw [prod_open b x y h0]
  congr 1
  exact (Finset.mul_prod_erase _ _ (Finset.mem_erase.2 ⟨hne.symm, Finset.mem_range.2 h1⟩)).symm

theorem rest2_update {n : ℕ} (b : Build) (x : ℕ → Bool) (y : Bits) (q0 q1 : ℕ) (s0 s1 : Bool) :
    b.rest2 n x (update (update y q0 s0) q1 s1) q0 q1 = b.rest2 n x y q0 q1 := by
  unfold rest2
  apply Finset.prod_congr rfl
  intro r hr
  obtain ⟨h1, h2⟩ := Finset.mem_erase.1 hr
  obtain ⟨h2, _⟩ := Finset.mem_erase.1 h2
  unfold open1
  rw [Function.update_of_ne h1, Function.update_of_ne h2]

/-- The state of the wires with the bits of two of them given. -/
theorem amp_update2 {n : ℕ} (b : Build) (ρ : ℕ → ℝ) (β : ℕ → Bool) (y : Bits) {q0 q1 : ℕ} (h0 : q0 < n) (h1 : q1 < n)
    (hne : q0 ≠ q1) (s0 s1 : Bool) : b.amp n ρ β (update (update y q0 s0) q1 s1) = b.D.lin ρ (fun x =>
      ew .simple ((graph b.D).ty (b.tip q0)) .boundary (x (b.tip q0)) s0 *
        (ew .simple ((graph b.D).ty (b.tip q1)) .boundary (x (b.tip q1)) s1 * b.rest2 n x y q0 q1)) β := by
  unfold amp
  apply lin_congr
  intro x
  rw [prod_open2 b x _ h0 h1 hne, rest2_update]
  unfold open1
  rw [Function.update_self, Function.update_of_ne hne, Function.update_self]

/-- A factor that depends on the bits of the ends of two wires acts as a matrix on the two wires. -/
theorem amp_pair {n : ℕ} {b b' : Build} (ρ : ℕ → ℝ) (β : ℕ → Bool) {q0 q1 : ℕ} (h0 : q0 < n) (h1 : q1 < n) (hne : q0 ≠ q1)
    (g : Bool → Bool → ℂ) (M : Mat2)
    (hg : ∀ y, b'.amp n ρ β y = b.D.lin ρ (fun x => g (x (b.tip q0)) (x (b.tip q1)) * ∏ r ∈ Finset.range n, b.open1 x y r) β)
    (hM : ∀ p r o0 o1, g p r * (ew .simple ((graph b.D).ty (b.tip q0)) .boundary p o0 *
        ew .simple ((graph b.D).ty (b.tip q1)) .boundary r o1) =
      ∑ s : Bool × Bool, M (o0, o1) s * (ew .simple ((graph b.D).ty (b.tip q0)) .boundary p s.1 *
        ew .simple ((graph b.D).ty (b.tip q1)) .boundary r s.2)) :
    b'.amp n ρ β = app2 M q0 q1 (b.amp n ρ β) := by
  funext y
  unfold app2
  simp only [amp_update2 b ρ β y h0 h1 hne]
  rw [hg, Fintype.sum_prod_type, Fintype.sum_bool, Fintype.sum_bool, Fintype.sum_bool]
  simp only [← lin_smul, ← lin_add]
  apply lin_congr
  intro x
  have k := hM (x (b.tip q0)) (x (b.tip q1)) (y q0) (y q1)
  rw [Fintype.sum_prod_type, Fintype.sum_bool, Fintype.sum_bool, Fintype.sum_bool] at k
  rw [prod_open2 b x y h0 h1 hne]
  unfold open1
  simp only at k ⊢
  linear_combination (b.rest2 n x y q0 q1) * k

/-- Two wires end in spiders of types `c0` and `c1`, which are not connected. -/
structure Ends (n : ℕ) (b : Build) (q0 q1 : ℕ) (c0 c1 : VType) : Prop where
  wb : b.WB n
  lt0 : q0 < n
  lt1 : q1 < n
  ne : q0 ≠ q1
  ty0 : (graph b.D).ty (b.tip q0) = c0
  ty1 : (graph b.D).ty (b.tip q1) = c1
  apart : (graph b.D).total (b.tip q0) (b.tip q1) = 0

theorem ends_of_spiders {n : ℕ} {c0 c1 : VType} (h0 : c0 ≠ .boundary) (h1 : c1 ≠ .boundary) {q0 q1 : ℕ} (hne : q0 ≠ q1)
    {φ0 φ1 : Phase} (r0 : φ0.const.InRange) (r1 : φ1.const.InRange) {t0 t1 : EType} {b b1 b2 : Build} (h : b.WB n)
    (e0 : spider c0 q0 φ0 t0 b = .ok b1) (e1 : spider c1 q1 φ1 t1 b1 = .ok b2) : b2.Ends n q0 q1 c0 c1 := by
  have g0 := spider_grown h0 r0 h e0
  have g1 := spider_grown h1 r1 g0.wb e1
  have ht : b2.tip q0 = b1.tip q0 := g1.tip q0 hne
  refine ⟨g1.wb, g0.lt, g1.lt, hne, ?_, g1.ty, ?_⟩
  · rw [ht, g1.tyo _ (g0.wb.alive q0 g0.lt), g0.ty]
  · rw [graph_total_symm g1.wb.good.inv]
    apply g1.apart
    · rw [ht]
      exact fun e => hne (g0.wb.inj q0 g0.lt q1 g1.lt e)
    · exact fun e => hne (g1.wb.inj q0 g0.lt q1 g1.lt e)

theorem lift_ok {α : Type} {x : Option α} {a : α} (h : lift x = .ok a) : x = some a := by
  cases x with
  | some y => injection h with h; rw [h]
  | none => cases h

/-- An edge between the ends of two wires. -/
theorem link_step {n : ℕ} {q0 q1 : ℕ} {c0 c1 : VType} (h0 : c0 ≠ .boundary) (h1 : c1 ≠ .boundary) {t : EType} {b b' : Build}
    (h : b.Ends n q0 q1 c0 c1) (e : link q0 q1 t b = .ok b') (M : Mat2)
    (hM : ∀ p r o0 o1, ew t c0 c1 p r * (ew .simple c0 .boundary p o0 * ew .simple c1 .boundary r o1) =
      ∑ s : Bool × Bool, M (o0, o1) s * (ew .simple c0 .boundary p s.1 * ew .simple c1 .boundary r s.2)) :
    b'.WB n ∧ ∀ ρ β, b'.amp n ρ β = app2 M q0 q1 (b.amp n ρ β) := by
  unfold link at e
  rw [lift_get h.wb h.lt0, lift_get h.wb h.lt1] at e
  simp only [Res.bind] at e
  obtain ⟨D1, e1, e2⟩ := bind_ok e
  have e1 := lift_ok e1
  injection e2 with e2
  have a0 := h.wb.alive q0 h.lt0
  have a1 := h.wb.alive q1 h.lt1
  have hne : b.tip q0 ≠ b.tip q1 := fun e => h.ne (h.wb.inj q0 h.lt0 q1 h.lt1 e)
  have se := addEdge_addE h.wb.good.inv a0 a1 hne e1
  have t0 : (graph b.D).ty (b.tip q0) ≠ .boundary := by rw [h.ty0]; exact h0
  have t1 : (graph b.D).ty (b.tip q1) ≠ .boundary := by rw [h.ty1]; exact h1
  subst e2
  refine ⟨h.wb.addE se t0 t1 h.apart hne, fun ρ β => ?_⟩
  apply amp_pair ρ β h.lt0 h.lt1 h.ne (ew t c0 c1) M
  · intro y
    show D1.lin ρ _ β = _
    rw [se.lin h.wb.good.inv a0 a1 hne]
    apply lin_congr
    intro x
    rw [h.ty0, h.ty1]
    congr 1
    apply Finset.prod_congr rfl
    intro r _
    unfold open1
    show ew _ ((graph D1).ty (b.tip r)) _ (x (b.tip r)) _ = _
    rw [se.ty]
  · rw [h.ty0, h.ty1]; exact hM

/-- The factor of a phase gadget. -/
def gfac (m l : VType) (t : EType) (c0 c1 : VType) (u : ℂ) (p r : Bool) : ℂ :=
  ∑ i : Bool, ∑ j : Bool, (if j = true then u else 1) *
    (ew .simple c0 m p i * ew t c1 m r i * ew .simple m l i j)

/-- A phase gadget between the ends of two wires. -/
theorem gadget_step {n : ℕ} {m l : VType} (hm : m ≠ .boundary) (hl : l ≠ .boundary) {q0 q1 : ℕ} {c0 c1 : VType}
    (h0 : c0 ≠ .boundary) (h1 : c1 ≠ .boundary) {t : EType} {φ : Phase} (hφ : φ.const.InRange) {b b' : Build}
    (h : b.Ends n q0 q1 c0 c1) (e : gadget m l t φ q0 q1 b = .ok b') (M : (ℕ → ℝ) → Mat2)
    (hM : ∀ ρ p r o0 o1, gfac m l t c0 c1 (φ.u ρ) p r * (ew .simple c0 .boundary p o0 * ew .simple c1 .boundary r o1) =
      ∑ s : Bool × Bool, M ρ (o0, o1) s * (ew .simple c0 .boundary p s.1 * ew .simple c1 .boundary r s.2)) :
    b'.WB n ∧ ∀ ρ β, b'.amp n ρ β = app2 (M ρ) q0 q1 (b.amp n ρ β) := by
  unfold gadget at e
  simp only [lift_get h.wb h.lt0, lift_get h.wb h.lt1, Res.bind] at e
  obtain ⟨D3, e3, f3⟩ := bind_ok e
  obtain ⟨D4, e4, f4⟩ := bind_ok f3
  obtain ⟨D5, e5, f5⟩ := bind_ok f4
  have e3 := lift_ok e3
  have e4 := lift_ok e4
  have e5 := lift_ok e5
  injection f5 with f5
  have z0 : (Phase.ofRat 0).const.InRange := (PiRational.modPi_range_iff ⟨0⟩).2 (by norm_num)
  have s1 := addVertex_addV h.wb.good.inv ⟨-1, Phase.ofRat 0, m⟩
  set D1 := (b.D.addVertex ⟨-1, Phase.ofRat 0, m⟩).1
  set vm := (b.D.addVertex ⟨-1, Phase.ofRat 0, m⟩).2
  have s2 := addVertex_addV s1.inv ⟨-1, φ, l⟩
  set D2 := (D1.addVertex ⟨-1, φ, l⟩).1
  set vl := (D1.addVertex ⟨-1, φ, l⟩).2
  have w1 := h.wb.addV s1 z0
  have w2 := w1.addV s2 hφ
  have a0 := h.wb.alive q0 h.lt0
  have a1 := h.wb.alive q1 h.lt1
  have n0m := s1.ne_of_alive a0
  have n1m := s1.ne_of_alive a1
  have am1 : D1.Alive vm := (s1.alive _).2 (.inl rfl)
  have a01 : D1.Alive (b.tip q0) := (s1.alive _).2 (.inr a0)
  have a11 : D1.Alive (b.tip q1) := (s1.alive _).2 (.inr a1)
  have n0l := s2.ne_of_alive a01
  have n1l := s2.ne_of_alive a11
  have nml := s2.ne_of_alive am1
  have am2 : D2.Alive vm := (s2.alive _).2 (.inr am1)
  have al2 : D2.Alive vl := (s2.alive _).2 (.inl rfl)
  have a02 : D2.Alive (b.tip q0) := (s2.alive _).2 (.inr a01)
  have a12 : D2.Alive (b.tip q1) := (s2.alive _).2 (.inr a11)
  have hne : b.tip q0 ≠ b.tip q1 := fun e => h.ne (h.wb.inj q0 h.lt0 q1 h.lt1 e)
  have ty2m : (graph D2).ty vm = m := by rw [s2.ty_old nml, s1.ty_new]
  have ty2l : (graph D2).ty vl = l := s2.ty_new
  have ty2 : ∀ v, b.D.Alive v → (graph D2).ty v = (graph b.D).ty v := fun v hv => by
    rw [s2.ty_old (s2.ne_of_alive ((s1.alive _).2 (.inr hv))), s1.ty_old (s1.ne_of_alive hv)]
  have tm : ∀ a, (graph D2).total vm a = 0 := fun a => by rw [s2.total, s1.total_new]
  have tl : ∀ a, (graph D2).total vl a = 0 := fun a => s2.total_new a
  have tma : ∀ a, (graph D2).total a vm = 0 := fun a => by rw [graph_total_symm s2.inv, tm]
  have tla : ∀ a, (graph D2).total a vl = 0 := fun a => by rw [graph_total_symm s2.inv, tl]
  have s3 := addEdge_addE s2.inv a02 am2 n0m e3
  have w3 : (⟨D3, b.qs⟩ : Build).WB n := by
    refine w2.addE s3 ?_ ?_ (tma _) n0m
    · show (graph D2).ty _ ≠ _
      rw [ty2 _ a0, h.ty0]; exact h0
    · show (graph D2).ty _ ≠ _
      rw [ty2m]; exact hm
  have s4 := addEdge_addE s3.inv ((s3.alive _).2 a12) ((s3.alive _).2 am2) n1m e4
  have w4 : (⟨D4, b.qs⟩ : Build).WB n := by
    refine w3.addE s4 ?_ ?_ ?_ n1m
    · show (graph D3).ty _ ≠ _
      rw [s3.ty, ty2 _ a1, h.ty1]; exact h1
    · show (graph D3).ty _ ≠ _
      rw [s3.ty, ty2m]; exact hm
    · show (graph D3).total _ _ = 0
      rw [s3.total, if_neg, tma]
      rintro (⟨h1, _⟩ | ⟨h1, _⟩)
      · exact hne h1.symm
      · exact n1m h1
  have s5 := addEdge_addE s4.inv ((s4.alive _).2 ((s3.alive _).2 am2)) ((s4.alive _).2 ((s3.alive _).2 al2)) nml e5
  have w5 : (⟨D5, b.qs⟩ : Build).WB n := by
    refine w4.addE s5 ?_ ?_ ?_ nml
    · show (graph D4).ty _ ≠ _
      rw [s4.ty, s3.ty, ty2m]; exact hm
    · show (graph D4).ty _ ≠ _
      rw [s4.ty, s3.ty, ty2l]; exact hl
    · show (graph D4).total _ _ = 0
      rw [s4.total, if_neg, s3.total, if_neg, tla]
      · rintro (⟨_, h1⟩ | ⟨_, h1⟩)
        · exact nml h1.symm
        · exact n0l h1.symm
      · rintro (⟨_, h1⟩ | ⟨_, h1⟩)
        · exact nml h1.symm
        · exact n1l h1.symm
  subst f5
  refine ⟨w5, fun ρ β => ?_⟩
  apply amp_pair ρ β h.lt0 h.lt1 h.ne (gfac m l t c0 c1 (φ.u ρ)) (M ρ)
  · intro y
    show D5.lin ρ _ β = _
    rw [s5.lin s4.inv ((s4.alive _).2 ((s3.alive _).2 am2)) ((s4.alive _).2 ((s3.alive _).2 al2)) nml,
      s4.lin s3.inv ((s3.alive _).2 a12) ((s3.alive _).2 am2) n1m, s3.lin s2.inv a02 am2 n0m, s2.lin s1.inv hl,
      s1.lin h.wb.good.inv hm]
    apply lin_congr
    intro x
    have hop : ∀ i j, (∏ r ∈ Finset.range n, (⟨D5, b.qs⟩ : Build).open1 (update (update x vm i) vl j) y r) =
        ∏ r ∈ Finset.range n, b.open1 x y r := by
      intro i j
      apply Finset.prod_congr rfl
      intro r hr
      have ar := h.wb.alive r (Finset.mem_range.1 hr)
      unfold open1
      show ew _ ((graph D5).ty (b.tip r)) _ (update (update x vm i) vl j (b.tip r)) _ = _
      rw [s5.ty, s4.ty, s3.ty, ty2 _ ar, Function.update_of_ne (s2.ne_of_alive ((s1.alive _).2 (.inr ar))),
        Function.update_of_ne (s1.ne_of_alive ar)]
    simp only [hop, s4.ty, s3.ty, ty2m, ty2l, ty2 _ a0, ty2 _ a1, h.ty0, h.ty1, Function.update_self,
      Function.update_of_ne nml, Function.update_of_ne n0l, Function.update_of_ne n1l, Function.update_of_ne n0m,
      Function.update_of_ne n1m]
    have u0 : (Phase.ofRat 0).u ρ = 1 := by rw [Phase.u_ofRat]; simp
    rw [u0]
    unfold gfac
    simp only [Fintype.sum_bool, if_true, Bool.false_eq_true, if_false]
    ring
  · rw [h.ty0, h.ty1]; exact hM ρ

/-- Exchanging two wires. -/
theorem does_swap {n : ℕ} {q0 q1 : ℕ} (hne : q0 ≠ q1) :
    Does n (swap q0 q1) fun _ ψ y => ψ (update (update y q0 (y q1)) q1 (y q0)) where
  hom _ _ _ := rfl
  step b b' h e := by
    unfold swap at e
    obtain ⟨s0, i0, f0⟩ := bind_ok e
    obtain ⟨h1, rfl⟩ := lt_of_lift h i0
    obtain ⟨s1, i1, f1⟩ := bind_ok f0
    obtain ⟨h0, rfl⟩ := lt_of_lift h i1
    obtain ⟨d, hd⟩ := h.alive q1 h1
    rw [if_pos (h.good.inv.lt ⟨d, hd⟩), hd] at f1
    simp only at f1
    obtain ⟨D3, e3, f3⟩ := bind_ok f1
    obtain ⟨D4, e4, f4⟩ := bind_ok f3
    have e3 := lift_ok e3
    have e4 := lift_ok e4
    injection f4 with f4
    have v1 := addVertex_addV h.good.inv ⟨q1, Phase.zero, .z⟩
    set D1 := (b.D.addVertex ⟨q1, Phase.zero, .z⟩).1
    set t0 := (b.D.addVertex ⟨q1, Phase.zero, .z⟩).2
    have v2 := addVertex_addV v1.inv ⟨q0, Phase.zero, .z⟩
    set D2 := (D1.addVertex ⟨q0, Phase.zero, .z⟩).1
    set t1 := (D1.addVertex ⟨q0, Phase.zero, .z⟩).2
    have w2 : (⟨D2, b.qs⟩ : Build).WB n := (h.addV v1 zero_inRange).addV v2 zero_inRange
    have a0 := h.alive q0 h0
    have a1 := h.alive q1 h1
    have am : D1.Alive t0 := (v1.alive _).2 (.inl rfl)
    have up : ∀ v, b.D.Alive v → D2.Alive v := fun v hv => (v2.alive _).2 (.inr ((v1.alive _).2 (.inr hv)))
    have at0 : D2.Alive t0 := (v2.alive _).2 (.inr am)
    have at1 : D2.Alive t1 := (v2.alive _).2 (.inl rfl)
    have n0 : ∀ v, b.D.Alive v → v ≠ t0 := fun v hv => v1.ne_of_alive hv
    have n1 : ∀ v, b.D.Alive v → v ≠ t1 := fun v hv => v2.ne_of_alive ((v1.alive _).2 (.inr hv))
    have n01 : t0 ≠ t1 := v2.ne_of_alive am
    have hty : ∀ v, b.D.Alive v → (graph D2).ty v = (graph b.D).ty v := fun v hv => by
      rw [v2.ty_old (n1 v hv), v1.ty_old (n0 v hv)]
    have ty0 : (graph D2).ty t0 = .z := by rw [v2.ty_old n01, v1.ty_new]
    have ty1 : (graph D2).ty t1 = .z := v2.ty_new
    have tt0 : ∀ a, (graph D2).total t0 a = 0 := fun a => by rw [v2.total, v1.total_new]
    have tt1 : ∀ a, (graph D2).total t1 a = 0 := fun a => v2.total_new a
    have s3 := addEdge_addE v2.inv (up _ a1) at1 (n1 _ a1) e3
    have s4 := addEdge_addE s3.inv ((s3.alive _).2 (up _ a0)) ((s3.alive _).2 at0) (n0 _ a0) e4
    have tne : b.tip q0 ≠ b.tip q1 := fun e => hne (h.inj q0 h0 q1 h1 e)
    -- the wires
    have wx : (⟨D2, (b.qs.set q1 (b.tip q0)).set q0 (b.tip q1)⟩ : Build).WB n := w2.exchange h0 h1
    have htx : ∀ r, (⟨D2, (b.qs.set q1 (b.tip q0)).set q0 (b.tip q1)⟩ : Build).tip r =
        if r = q0 then b.tip q1 else if r = q1 then b.tip q0 else b.tip r := by
      intro r
      rw [tip_set (by rw [List.length_set, h.len]; exact h0)]
      split_ifs with hr hr'
      · rfl
      · have := tip_set (D := b.D) (qs := b.qs) (q := q1) (w := b.tip q0) (by rw [h.len]; exact h1) r
        rw [if_pos hr'] at this
        exact this
      · have := tip_set (D := b.D) (qs := b.qs) (q := q1) (w := b.tip q0) (by rw [h.len]; exact h1) r
        rw [if_neg hr'] at this
        exact this
    have hal : ∀ r < n, ∃ s < n, (⟨D2, (b.qs.set q1 (b.tip q0)).set q0 (b.tip q1)⟩ : Build).tip r = b.tip s := by
      intro r hr
      rw [htx]
      split_ifs
      · exact ⟨q1, h1, rfl⟩
      · exact ⟨q0, h0, rfl⟩
      · exact ⟨r, hr, rfl⟩
    have w3 : (⟨D3, ((b.qs.set q1 (b.tip q0)).set q0 (b.tip q1)).set q0 t1⟩ : Build).WB n := by
      refine WB.extend (t := .simple) wx h0 ?_ ?_ tt1 ?_
      · rw [htx, if_pos rfl]; exact s3
      · show (graph D2).ty t1 ≠ _
        rw [ty1]; decide
      · intro r hr
        obtain ⟨s, hs, e⟩ := hal r hr
        rw [e]; exact n1 _ (h.alive s hs)
    have ht3 : ∀ r, (⟨D3, ((b.qs.set q1 (b.tip q0)).set q0 (b.tip q1)).set q0 t1⟩ : Build).tip r =
        if r = q0 then t1 else (⟨D2, (b.qs.set q1 (b.tip q0)).set q0 (b.tip q1)⟩ : Build).tip r := by
      intro r
      rw [tip_set (by rw [List.length_set, List.length_set, h.len]; exact h0)]; rfl
    have w4 : (⟨D4, (((b.qs.set q1 (b.tip q0)).set q0 (b.tip q1)).set q0 t1).set q1 t0⟩ : Build).WB n := by
      refine WB.extend (t := .simple) w3 h1 ?_ ?_ ?_ ?_
      · rw [ht3, if_neg hne.symm, htx, if_neg hne.symm, if_pos rfl]; exact s4
      · show (graph D3).ty t0 ≠ _
        rw [s3.ty, ty0]; decide
      · intro a
        show (graph D3).total t0 a = 0
        rw [s3.total, if_neg, tt0]
        rintro (⟨e, _⟩ | ⟨e, _⟩)
        · exact n0 _ a1 e.symm
        · exact n01 e
      · intro r hr
        rw [ht3]
        split_ifs
        · exact n01.symm
        · obtain ⟨s, hs, e⟩ := hal r hr
          rw [e]; exact n0 _ (h.alive s hs)
    have hqs : (((b.qs.set q1 (b.tip q0)).set q0 (b.tip q1)).set q0 t1).set q1 t0 = (b.qs.set q1 t0).set q0 t1 := by
      rw [List.set_set, List.set_comm _ _ hne, List.set_set]
    rw [hqs] at w4
    subst f4
    refine ⟨w4, 1, one_pos, fun ρ β => ?_⟩
    have htip : ∀ r, (⟨D4, (b.qs.set q1 t0).set q0 t1⟩ : Build).tip r =
        if r = q0 then t1 else if r = q1 then t0 else b.tip r := by
      intro r
      rw [tip_set (by rw [List.length_set, h.len]; exact h0)]
      split_ifs with hr hr'
      · rfl
      · have := tip_set (D := b.D) (qs := b.qs) (q := q1) (w := t0) (by rw [h.len]; exact h1) r
        rw [if_pos hr'] at this
        exact this
      · have := tip_set (D := b.D) (qs := b.qs) (q := q1) (w := t0) (by rw [h.len]; exact h1) r
        rw [if_neg hr'] at this
        exact this
    rw [Complex.ofReal_one, phase_one]
    funext y
    rw [amp_update2 b ρ β y h0 h1 hne]
    show D4.lin ρ (fun x => ∏ r ∈ Finset.range n, (⟨D4, (b.qs.set q1 t0).set q0 t1⟩ : Build).open1 x y r) β = _
    rw [s4.lin s3.inv ((s3.alive _).2 (up _ a0)) ((s3.alive _).2 at0) (n0 _ a0), s3.lin v2.inv (up _ a1) at1 (n1 _ a1),
      v2.lin v1.inv (by simp), v1.lin h.good.inv (by simp)]
    apply lin_congr
    intro x
    have hr : ∀ i j, (⟨D4, (b.qs.set q1 t0).set q0 t1⟩ : Build).rest2 n (update (update x t0 i) t1 j) y q0 q1 = b.rest2 n x y q0 q1 := by
      intro i j
      unfold rest2
      apply Finset.prod_congr rfl
      intro r hr
      obtain ⟨r1, r2⟩ := Finset.mem_erase.1 hr
      obtain ⟨r2, r3⟩ := Finset.mem_erase.1 r2
      have ar := h.alive r (Finset.mem_range.1 r3)
      unfold open1
      rw [htip, if_neg r2, if_neg r1]
      show ew _ ((graph D4).ty (b.tip r)) _ _ _ = _
      rw [s4.ty, s3.ty, hty _ ar, Function.update_of_ne (n1 _ ar), Function.update_of_ne (n0 _ ar)]
    have o0 : ∀ i j, (⟨D4, (b.qs.set q1 t0).set q0 t1⟩ : Build).open1 (update (update x t0 i) t1 j) y q0 =
        ew .simple .z .boundary j (y q0) := by
      intro i j
      unfold open1
      rw [htip, if_pos rfl, Function.update_self]
      show ew _ ((graph D4).ty t1) _ _ _ = _
      rw [s4.ty, s3.ty, ty1]
    have o1 : ∀ i j, (⟨D4, (b.qs.set q1 t0).set q0 t1⟩ : Build).open1 (update (update x t0 i) t1 j) y q1 =
        ew .simple .z .boundary i (y q1) := by
      intro i j
      unfold open1
      rw [htip, if_neg hne.symm, if_pos rfl, Function.update_of_ne n01, Function.update_self]
      show ew _ ((graph D4).ty t0) _ _ _ = _
      rw [s4.ty, s3.ty, ty0]
    simp only [prod_open2 _ _ y h0 h1 hne, hr, o0, o1, s3.ty, ty0, ty1, hty _ a0, hty _ a1, Function.update_self,
      Function.update_of_ne n01, Function.update_of_ne (n0 _ a0), Function.update_of_ne (n0 _ a1),
      Function.update_of_ne (n1 _ a0), Function.update_of_ne (n1 _ a1), Phase.u_zero]
    generalize b.rest2 n x y q0 q1 = R
    have hz : ∀ (c : VType) (p o : Bool), ew .simple c .boundary p o = ew .simple c .z p o := by
      intro c p o
      cases c <;> simp [ew, odd]
    simp only [hz]
    generalize ew .simple ((graph b.D).ty (b.tip q0)) .z (x (b.tip q0)) = f0
    generalize ew .simple ((graph b.D).ty (b.tip q1)) .z (x (b.tip q1)) = f1
    cases y q0 <;> cases y q1 <;> simp [ew, odd] <;> ring

end Build

end MQT.ZX
