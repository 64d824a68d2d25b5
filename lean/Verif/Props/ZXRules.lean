/-
Properties C58, C74, C75: the rewrite rules and simplification loops of ZX diagrams.

`Good` is what all diagrams built by the package satisfy: right bookkeeping, no parallel edges, phases in (-π, π], and
at most one edge at a boundary vertex.
-/
import Mathlib.Tactic.IntervalCases
import Verif.ZX.Concrete

set_option autoImplicit false

noncomputable section

open Classical

open Function (update)

namespace MQT.ZX

open Diagram

/-! ### C58: the rules -/

/-- **C58.** Identity removal.
Missing from C58: diagrams that are not `Good`; with parallel edges it is false for fusion (`c58_fuse_parallel`). -/
theorem c58_removeId_partial {D : Diagram} (h : D.Good) {v : ℕ} (hc : D.checkIdSimp v) :
    ∃ D', D.removeId v = some D' ∧ D'.Good ∧ D.Same D' ∧ D'.verts = D.verts.erase v :=
  let ⟨D', h1, h2, h3, h4, _⟩ := removeId_sound h hc
  ⟨D', h1, h2, h3, h4⟩

/-- **C58.** Spider fusion.
Missing from C58: diagrams that are not `Good`; with parallel edges it is false for fusion (`c58_fuse_parallel`). -/
theorem c58_fuseSpiders_partial {D : Diagram} (h : D.Good) {v0 v1 : ℕ} (hv : D.Alive v0) (hc : D.checkSpiderFusion v0 v1) :
    ∃ D', D.fuseSpiders v0 v1 = some D' ∧ D'.Good ∧ D.Same D' ∧ D'.verts = D.verts.erase v1 :=
  let ⟨D', h1, h2, h3, h4, _⟩ := fuseSpiders_sound h hv hc
  ⟨D', h1, h2, h3, h4⟩

/-- **C58.** Local complementation.
Missing from C58: diagrams that are not `Good`; with parallel edges it is false for fusion (`c58_fuse_parallel`). -/
theorem c58_localComp_partial {D : Diagram} (h : D.Good) {v : ℕ} (hc : D.checkLocalComp v) :
    ∃ D', D.localComp v = some D' ∧ D'.Good ∧ D.Same D' ∧ D'.verts = D.verts.erase v :=
  let ⟨D', h1, h2, h3, h4, _⟩ := localComp_sound h hc
  ⟨D', h1, h2, h3, h4⟩

/-- **C58.** Pivoting two spiders with Pauli phases.
Missing from C58: diagrams that are not `Good`; with parallel edges it is false for fusion (`c58_fuse_parallel`). -/
theorem c58_pivotPauli_partial {D : Diagram} (h : D.Good) {v0 v1 : ℕ} (hc : D.checkPivotPauli v0 v1) :
    ∃ D', D.pivotPauli v0 v1 = some D' ∧ D'.Good ∧ D.Same D' ∧ D'.verts = (D.verts.erase v0).erase v1 :=
  let ⟨D', h1, h2, h3, h4, _⟩ := pivotPauli_sound h hc
  ⟨D', h1, h2, h3, h4⟩

/-- **C58.** Pivoting, after splitting off phases and boundaries.
Missing from C58: diagrams that are not `Good`; with parallel edges it is false for fusion (`c58_fuse_parallel`). -/
theorem c58_pivot_partial {D : Diagram} (h : D.Good) {v0 v1 : ℕ} (hc : D.checkPivot v0 v1) :
    ∃ D', D.pivot v0 v1 = some D' ∧ D'.Good ∧ D.Same D' :=
  let ⟨D', h1, h2, h3, _⟩ := pivot_sound h hc
  ⟨D', h1, h2, h3⟩

/-- **C58.** Pivoting into a gadget.
Missing from C58: diagrams that are not `Good`; with parallel edges it is false for fusion (`c58_fuse_parallel`). -/
theorem c58_pivotGadget_partial {D : Diagram} (h : D.Good) {v0 v1 : ℕ} (hc : D.checkPivotGadget v0 v1) :
    ∃ D', D.pivotGadget v0 v1 = some D' ∧ D'.Good ∧ D.Same D' :=
  let ⟨D', h1, h2, h3, _⟩ := pivotGadget_sound h hc
  ⟨D', h1, h2, h3⟩

/-! Examples -/

/-- A path boundary - spider - Hadamard - spider - boundary with phases ±π/2 and 0. -/
def pathD : Diagram :=
  ofLists [.boundary, .z, .z, .z, .boundary] (fun v => if v = 2 then Phase.ofRat (1 / 2) else Phase.zero)
    [[⟨1, .simple⟩], [⟨0, .simple⟩, ⟨2, .hadamard⟩], [⟨1, .hadamard⟩, ⟨3, .hadamard⟩], [⟨2, .hadamard⟩, ⟨4, .simple⟩], [⟨3, .simple⟩]]
    [0] [4]

theorem half_inRange : (Phase.ofRat (1 / 2)).const.InRange := (PiRational.modPi_range_iff ⟨1 / 2⟩).2 (by norm_num)

theorem ofRat_const {q : ℚ} (h : -1 < q ∧ q ≤ 1) : (Phase.ofRat q).const = ⟨q⟩ := by
  show PiRational.modPi ⟨q⟩ = _
  exact Phase.modPi_of_inRange (a := ⟨q⟩) h

theorem pathD_good : pathD.Good := by
  refine ofLists_good (by decide) (by decide) fun v => ?_
  split_ifs
  · exact half_inRange
  · exact Phase.zero_inRange

theorem pathD_check : pathD.checkLocalComp 2 := by
  refine ⟨by simp [type, pathD, ofLists], ⟨Phase.ofRat (1 / 2), by simp [phase, pathD, ofLists], rfl, ?_⟩, ?_⟩
  · rw [ofRat_const (by norm_num)]
    show (1 / 2 : ℚ).den = 2
    decide +kernel
  · simp [pathD, ofLists, type]

example : ∃ D', pathD.localComp 2 = some D' ∧ D'.Good ∧ pathD.Same D' ∧ D'.verts = {0, 1, 3, 4} := by
  obtain ⟨D', h1, h2, h3, h4⟩ := c58_localComp_partial pathD_good pathD_check
  refine ⟨D', h1, h2, h3, ?_⟩
  rw [h4, pathD, ofLists_verts]
  decide

/-- Not an empty statement: the linear map is not zero. -/
example (ρ : ℕ → ℝ) : val ρ pathD (fun _ => false) ≠ 0 := by
  have u2 : (Phase.ofRat (1 / 2)).u ρ = Complex.I := by
    rw [Phase.u_ofRat, show (((1 / 2 : ℚ) : ℝ) * Real.pi : ℝ) = Real.pi / 2 by push_cast; ring]
    push_cast
    exact Complex.exp_pi_div_two_mul_I
  rw [val_list pathD_good.inv ρ _ (lv := [0, 1, 2, 3, 4]) (li := [1, 2, 3]) (by decide) (by decide)]
  · simp only [show (1 / 2 : ℚ) = 2⁻¹ by norm_num] at u2
    simp [listSum, listW, pathD, ofLists, ew, odd, Graph.vf, graph, Graph.ty, Phase.u_zero, Function.update, u2, Complex.ext_iff]
  · intro v
    rw [pathD, ofLists_alive]
    simp
    omega
  · intro v
    rw [pathD, ofLists_ty]
    match v with
    | 0 => simp
    | 1 => simp
    | 2 => simp
    | 3 => simp
    | 4 => simp
    | v + 5 => simp

/-! Parallel edges have to be excluded: two spiders joined by both kinds of edges. -/

def parD : Diagram := ofLists [.z, .z] (fun _ => Phase.zero) [[⟨1, .simple⟩, ⟨1, .hadamard⟩], [⟨0, .simple⟩, ⟨0, .hadamard⟩]] [] []

theorem parD_inv : parD.Inv := ofLists_inv (by decide)

theorem parD_alive (v : ℕ) : parD.Alive v ↔ v ∈ [0, 1] := by
  unfold parD
  rw [ofLists_alive]
  simp
  omega

theorem parD_ty (v : ℕ) : (graph parD).ty v ≠ .boundary ↔ v ∈ [0, 1] := by
  unfold parD
  rw [ofLists_ty]
  match v with
  | 0 => simp
  | 1 => simp
  | v + 2 => simp

theorem parD_val (ρ : ℕ → ℝ) (b : ℕ → Bool) : val ρ parD b = 0 := by
  rw [val_list parD_inv ρ b (by decide) (by decide) parD_alive parD_ty]
  simp [listSum, listW, parD, ofLists, ew, odd, Graph.vf, graph, Graph.ty, Phase.u_zero]

/-- **C58.** The check of spider fusion does not exclude parallel edges; fusing then changes the linear map. -/
theorem c58_fuse_parallel : parD.checkSpiderFusion 0 1 ∧ ∃ D', parD.fuseSpiders 0 1 = some D' ∧ ¬ parD.SameC D' := by
  have a0 : parD.Alive 0 := (parD_alive 0).2 (by simp)
  have a1 : parD.Alive 1 := (parD_alive 1).2 (by simp)
  have inv1 := addPhase_eq parD_inv a0 Phase.zero
  have a1' : (parD.phased 0 Phase.zero).Alive 1 := by
    obtain ⟨d, hd⟩ := a1
    exact ⟨d, by unfold phased; simp only; rw [Function.update_of_ne (by simp)]; exact hd⟩
  refine ⟨⟨by simp, by simp [type, parD, ofLists], by simp [parD, ofLists, findEdge], by simp [type, parD, ofLists]⟩,
    (parD.phased 0 Phase.zero).without 1, ?_, ?_⟩
  · unfold fuseSpiders
    have hp : parD.phase 1 = some Phase.zero := by simp [phase, parD, ofLists]
    rw [hp]
    simp only [Option.bind_eq_bind, Option.bind_some]
    rw [inv1.1]
    simp only [Option.bind_some]
    have hadj : (parD.phased 0 Phase.zero).adj 1 = [⟨0, .simple⟩, ⟨0, .hadamard⟩] := rfl
    rw [hadj]
    simp only [forEdges, ne_eq, not_true, if_false, if_true, Option.bind_eq_bind, Option.bind_some]
    exact removeVertex_eq inv1.2 a1'
  · rintro ⟨_, _, k, hk, hv⟩
    have inv2 := without_inv inv1.2 a1'
    have := hv (fun _ => 0) (fun _ => false)
    have e : (Phase.zero.add Phase.zero).u (fun _ => 0) = 1 := by rw [Phase.u_add, Phase.u_zero]; norm_num
    rw [parD_val, val_list inv2 _ _ (lv := [0]) (li := [0]) (by decide) (by decide)] at this
    · simp [listSum, listW, parD, ofLists, phased, without, Alive, graph, Graph.vf, Phase.u_zero, hk, e] at this
    · intro v
      rw [without_alive]
      have : (parD.phased 0 Phase.zero).Alive v ↔ parD.Alive v := (phased_step parD_inv (V := ∅) ((parD_ty 0).2 (by simp)) Phase.zero_inRange (fun _ _ => False)).alive v
      rw [this, parD_alive]
      simp
      omega
    · intro v
      rw [without_ty, (phased_step parD_inv (V := ∅) ((parD_ty 0).2 (by simp)) Phase.zero_inRange (fun _ _ => False)).ty]
      have := parD_ty v
      by_cases hv : v = 1
      · simp [hv]
      · rw [if_neg hv, this]; simp [hv]

/-! ### C74: the loops -/

/-- **C74.** However many iterations they make, the simplification loops preserve the linear map and have no
undefined behaviour.
Missing from C74: termination of pivotSimp, pivotgadgetSimp and cliffordSimp; on an empty diagram the loops over edges are undefined (`c74_empty`). -/
theorem c74_loops_partial (k : ℕ) {D : Diagram} (h : D.Ready) :
    (idSimp k D).Sound D ∧ (spiderSimp k D).Sound D ∧ (localCompSimp k D).Sound D ∧ (pivotPauliSimp k D).Sound D ∧
    (pivotSimp k D).Sound D ∧ (pivotgadgetSimp k D).Sound D ∧ (interiorCliffordSimp k D).Sound D ∧ (cliffordSimp k D).Sound D :=
  ⟨idSimp_sound k h, spiderSimp_sound k h, localCompSimp_sound k h, pivotPauliSimp_sound k h, pivotSimp_sound k h,
    pivotgadgetSimp_sound k h, interiorCliffordSimp_sound k h, cliffordSimp_sound k h⟩

/-- **C74.** `interiorCliffordSimp` ends (after fewer iterations than there are vertices), and then no rule applies. -/
theorem c74_interiorClifford {k : ℕ} {D : Diagram} (h : D.Ready) (hk : D.verts.card < k) :
    ∃ D' n, interiorCliffordSimp k D = .done D' n ∧ D'.Ready ∧ D.Same D' ∧ D'.InteriorClifford ∧ D'.verts.card ≤ D.verts.card :=
  interiorCliffordSimp_total h hk

example : ∃ D' n, interiorCliffordSimp 6 pathD = .done D' n ∧ pathD.Same D' ∧ D'.InteriorClifford := by
  obtain ⟨D', n, h1, _, h3, h4, _⟩ := c74_interiorClifford (k := 6) (D := pathD) ⟨pathD_good, by simp [pathD, ofLists]⟩
    (by rw [pathD, ofLists_verts, Finset.card_range]; simp)
  exact ⟨D', n, h1, h3, h4⟩

/-- **C74.** On the empty diagram the loops over edges are undefined behaviour. -/
theorem c74_empty (k : ℕ) : spiderSimp (k + 1) Diagram.empty = .ub := rfl

/-! ### C75: gadgets -/

/-- **C75.** Fusing gadgets preserves the linear map up to a factor, where vertices have at most one leaf and a gadget
with a single leg has it to a spider.  Full statement: the same for all good diagrams without X spiders, which is
false (`c75_boundary`, `c75_leaves`). -/
theorem c75_fuseGadget_partial {D : Diagram} (h : D.Good) (hg : D.Gadgets) {v : ℕ} (hv : D.Alive v) :
    ∃ D' b, D.checkAndFuseGadget v = some (D', b) ∧ D'.Good ∧ D.SameC D' ∧ (b = false → D' = D) :=
  fuseGadget_sound h hg hv

/-- Gadgets 0, 1 and 4, 3 with legs 2, 5. -/
def twoD : Diagram :=
  ofLists [.z, .z, .z, .z, .z, .z, .boundary, .boundary] (fun v => if v = 0 ∨ v = 4 then Phase.ofRat (1 / 2) else Phase.zero)
    [[⟨1, .hadamard⟩], [⟨0, .hadamard⟩, ⟨2, .hadamard⟩, ⟨5, .hadamard⟩], [⟨1, .hadamard⟩, ⟨3, .hadamard⟩, ⟨6, .simple⟩],
      [⟨2, .hadamard⟩, ⟨5, .hadamard⟩, ⟨4, .hadamard⟩], [⟨3, .hadamard⟩], [⟨1, .hadamard⟩, ⟨3, .hadamard⟩, ⟨7, .simple⟩],
      [⟨2, .simple⟩], [⟨5, .simple⟩]] [6] [7]

theorem twoD_good : twoD.Good := by
  refine ofLists_good (by decide) (by decide) fun v => ?_
  split_ifs
  · exact half_inRange
  · exact Phase.zero_inRange

theorem twoD_gadgets : twoD.Gadgets := by
  have ty : ∀ v, (graph twoD).ty v = [VType.z, .z, .z, .z, .z, .z, .boundary, .boundary].getD v .boundary := fun v => by
    rw [twoD, ofLists_ty]
  refine ⟨?_, ?_, ?_⟩
  · intro w
    rw [ty]
    match w with
    | 0 => simp
    | 1 => simp
    | 2 => simp
    | 3 => simp
    | 4 => simp
    | 5 => simp
    | 6 => simp
    | 7 => simp
    | w + 8 => simp
  · intro w hw
    rw [twoD, ofLists_alive] at hw
    simp only [List.length_cons, List.length_nil] at hw
    unfold Leaf
    simp only [ty]
    interval_cases w <;> simp [twoD, ofLists]
  · intro w hw hl
    rw [twoD, ofLists_alive] at hw
    simp only [List.length_cons, List.length_nil] at hw
    interval_cases w <;> simp [twoD, ofLists] at hl

example : ∃ D', twoD.checkAndFuseGadget 0 = some (D', true) ∧ twoD.SameC D' := by
  have al : ∀ v, twoD.Alive v ↔ v < 8 := fun v => by rw [twoD, ofLists_alive]; simp
  obtain ⟨D', b, h1, h2, h3, _⟩ := c75_fuseGadget_partial twoD_good twoD_gadgets ((al 0).2 (by simp))
  refine ⟨D', ?_, h3⟩
  rw [h1]
  have h0 : twoD.adj 0 = [⟨1, .hadamard⟩] := rfl
  have a1 : twoD.adj 1 = [⟨0, .hadamard⟩, ⟨2, .hadamard⟩, ⟨5, .hadamard⟩] := rfl
  have a2 : twoD.adj 2 = [⟨1, .hadamard⟩, ⟨3, .hadamard⟩, ⟨6, .simple⟩] := rfl
  have a3 : twoD.adj 3 = [⟨2, .hadamard⟩, ⟨5, .hadamard⟩, ⟨4, .hadamard⟩] := rfl
  have a4 : twoD.adj 4 = [⟨3, .hadamard⟩] := rfl
  have a5 : twoD.adj 5 = [⟨1, .hadamard⟩, ⟨3, .hadamard⟩, ⟨7, .simple⟩] := rfl
  have t0 : twoD.type 0 = some .z := by simp [type, twoD, ofLists]
  have t2 : twoD.type 2 = some .z := by simp [type, twoD, ofLists]
  have t4 : twoD.type 4 = some .z := by simp [type, twoD, ofLists]
  have t5 : twoD.type 5 = some .z := by simp [type, twoD, ofLists]
  have p1 : twoD.phase 1 = some Phase.zero := by simp [phase, twoD, ofLists]
  have p3 : twoD.phase 3 = some Phase.zero := by simp [phase, twoD, ofLists]
  have hz := Phase.isPauli_zero
  have q3 : twoD.isPauli 3 := ⟨_, p3, hz⟩
  have scan : gadgetScan twoD 1 (twoD.adj 3) none = some (true, some 4) := by
    rw [a3]
    simp [gadgetScan, al, t2, t4, t5, a2, a4, a5, findEdge]
  have search : gadgetSearch twoD 1 (twoD.adj 5) none = some (some 3, some 4) := by
    rw [a5]
    simp [gadgetSearch, al, q3, scan, a1]
    simp [a3, findEdge]
  unfold checkAndFuseGadget at h1
  rw [if_pos (by simp [twoD, ofLists]), h0] at h1
  simp only [t0, Option.bind_eq_bind, Option.bind_some, p1, a1] at h1
  simp [hz, search] at h1
  cases hm : twoD.gadgetMerge 0 1 3 4 with
  | none => rw [hm] at h1; simp at h1
  | some D1 => rw [hm] at h1; simp at h1; rw [h1.2]

/-- Leaf - spider - output, with phases π/2 and 0. -/
def edgeD : Diagram :=
  ofLists [.z, .z, .boundary] (fun v => if v = 0 then Phase.ofRat (1 / 2) else Phase.zero)
    [[⟨1, .hadamard⟩], [⟨0, .hadamard⟩, ⟨2, .hadamard⟩], [⟨1, .hadamard⟩]] [] [2]

theorem edgeD_good : edgeD.Good := by
  refine ofLists_good (by decide) (by decide) fun v => ?_
  split_ifs
  · exact half_inRange
  · exact Phase.zero_inRange

theorem u_half (ρ : ℕ → ℝ) : (Phase.ofRat 2⁻¹).u ρ = Complex.I := by
  rw [Phase.u_ofRat, show (((2⁻¹ : ℚ) : ℝ) * Real.pi : ℝ) = Real.pi / 2 by push_cast; ring]
  push_cast
  exact Complex.exp_pi_div_two_mul_I

theorem edgeD_val (ρ : ℕ → ℝ) (b : ℕ → Bool) : val ρ edgeD b = if b 2 = true then 2 * Complex.I else 2 := by
  rw [val_list edgeD_good.inv ρ _ (lv := [0, 1, 2]) (li := [0, 1]) (by decide) (by decide)]
  · cases hb : b 2 <;>
    simp [listSum, listW, edgeD, ofLists, ew, odd, Graph.vf, graph, Graph.ty, Phase.u_zero, Function.update, u_half, hb] <;> ring
  · intro v
    rw [edgeD, ofLists_alive]
    simp
    omega
  · intro v
    rw [edgeD, ofLists_ty]
    match v with
    | 0 => simp
    | 1 => simp
    | 2 => simp
    | v + 3 => simp

/-- **C75.** A gadget whose leg is a boundary vertex: its phase is lost. -/
theorem c75_boundary : edgeD.Good ∧ ∃ D', edgeD.checkAndFuseGadget 0 = some (D', true) ∧ ¬ edgeD.SameC D' := by
  refine ⟨edgeD_good, ?_⟩
  have al : ∀ v, edgeD.Alive v ↔ v < 3 := fun v => by rw [edgeD, ofLists_alive]; simp
  have a0 : edgeD.Alive 0 := (al 0).2 (by simp)
  have a1 : edgeD.Alive 1 := (al 1).2 (by simp)
  have a2 : edgeD.Alive 2 := (al 2).2 (by simp)
  obtain ⟨e1, inv1⟩ := addPhase_eq edgeD_good.inv a2 (Phase.ofRat 2⁻¹)
  have al1 : ∀ v, (edgeD.phased 2 (Phase.ofRat 2⁻¹)).Alive v ↔ edgeD.Alive v := by
    intro v
    unfold Alive phased
    simp only
    by_cases hv : v = 2
    · subst hv
      rw [Function.update_self]
      cases edgeD.vert 2 <;> simp
    · rw [Function.update_of_ne hv]
  have inv2 := without_inv inv1 ((al1 0).2 a0)
  have al2 : ∀ v, ((edgeD.phased 2 (Phase.ofRat 2⁻¹)).without 0).Alive v ↔ v < 3 ∧ v ≠ 0 := fun v => by
    rw [without_alive, al1, al]
  have a12 := (al2 1).2 (by simp)
  have inv3 := without_inv inv2 a12
  refine ⟨((edgeD.phased 2 (Phase.ofRat 2⁻¹)).without 0).without 1, ?_, ?_⟩
  · unfold checkAndFuseGadget
    have h0 : edgeD.adj 0 = [⟨1, .hadamard⟩] := rfl
    have h1 : edgeD.adj 1 = [⟨0, .hadamard⟩, ⟨2, .hadamard⟩] := rfl
    have t0 : edgeD.type 0 = some .z := by simp [type, edgeD, ofLists]
    have p0 : edgeD.phase 0 = some (Phase.ofRat 2⁻¹) := by simp [phase, edgeD, ofLists]
    have p1 : edgeD.phase 1 = some Phase.zero := by simp [phase, edgeD, ofLists]
    have hz := Phase.isPauli_zero
    have hz' := Phase.isZero_zero
    rw [if_pos (by simp [edgeD, ofLists]), h0]
    simp only [t0, Option.bind_eq_bind, Option.bind_some, p1, h1]
    simp only [hz, hz', p0, Option.bind_some]
    simp only [not_true, List.length_cons, List.length_nil, ne_eq, if_false, if_true, reduceCtorEq]
    rw [if_neg (by simp), e1, Option.bind_some, removeVertex_eq inv1 ((al1 0).2 a0), Option.bind_some, removeVertex_eq inv2 a12]
    rfl
  · rintro ⟨_, _, k, hk, hv⟩
    have hD' : ∀ b, val (fun _ => 0) (((edgeD.phased 2 (Phase.ofRat 2⁻¹)).without 0).without 1) b = 1 := by
      intro b
      rw [val_list inv3 _ _ (lv := [2]) (li := []) (by decide) (by decide)]
      · simp [listSum, listW, edgeD, ofLists, phased, without, Alive, graph, Graph.vf, Phase.u_zero]
      · intro v
        rw [without_alive, al2]
        simp
        omega
      · intro v
        rw [without_ty, without_ty]
        have : (graph (edgeD.phased 2 (Phase.ofRat 2⁻¹))).ty v = (graph edgeD).ty v := by
          unfold Graph.ty graph phased
          simp only
          by_cases hv : v = 2
          · subst hv
            rw [Function.update_self]
            cases edgeD.vert 2 <;> simp
          · rw [Function.update_of_ne hv]
        rw [this, edgeD, ofLists_ty]
        match v with
        | 0 => simp
        | 1 => simp
        | 2 => simp
        | v + 3 => simp
    have v0 := hv (fun _ => 0) (fun _ => false)
    have v1 := hv (fun _ => 0) (fun _ => true)
    rw [hD', edgeD_val, mul_one] at v0 v1
    rw [if_neg (by simp)] at v0
    rw [if_pos rfl, ← v0] at v1
    have := congrArg Complex.re v1
    norm_num at this

/-- A gadget 0, 1 with legs 2, 3, and a vertex 4 with leaves 5, 6 and leg 2. -/
def leavesD : Diagram :=
  ofLists [.z, .z, .z, .boundary, .z, .z, .z, .boundary] (fun v => if v = 6 then Phase.ofRat 1 else Phase.zero)
    [[⟨1, .hadamard⟩], [⟨0, .hadamard⟩, ⟨3, .hadamard⟩, ⟨2, .hadamard⟩], [⟨1, .hadamard⟩, ⟨4, .hadamard⟩, ⟨7, .hadamard⟩],
      [⟨1, .hadamard⟩], [⟨5, .hadamard⟩, ⟨6, .hadamard⟩, ⟨2, .hadamard⟩], [⟨4, .hadamard⟩], [⟨4, .hadamard⟩], [⟨2, .hadamard⟩]] [3] [7]

theorem leavesD_good : leavesD.Good := by
  refine ofLists_good (by decide) (by decide) fun v => ?_
  split_ifs
  · exact pi_inRange
  · exact Phase.zero_inRange

theorem leavesD_alive (v : ℕ) : leavesD.Alive v ↔ v < 8 := by rw [leavesD, ofLists_alive]; simp

theorem leavesD_ty (v : ℕ) : (graph leavesD).ty v ≠ .boundary ↔ v ∈ [0, 1, 2, 4, 5, 6] := by
  rw [leavesD, ofLists_ty]
  match v with
  | 0 => simp
  | 1 => simp
  | 2 => simp
  | 3 => simp
  | 4 => simp
  | 5 => simp
  | 6 => simp
  | 7 => simp
  | v + 8 => simp

theorem leavesD_val (ρ : ℕ → ℝ) : val ρ leavesD (fun v => decide (v = 7)) = 0 := by
  have u1 : (Phase.ofRat 1).u ρ = -1 := Phase.u_pi ρ
  rw [val_list leavesD_good.inv ρ _ (lv := [5, 6, 4, 0, 1, 2, 3, 7]) (li := [5, 6, 4, 0, 1, 2]) (by decide) (by decide)]
  · have e : ∀ x, listW leavesD ρ x [5, 6, 4, 0, 1, 2, 3, 7] = sg (x 5) (x 4) * (if x 6 = true then -1 else 1) * sg (x 6) (x 4) *
        sg (x 4) (x 2) * sg (x 0) (x 1) * sg (x 1) (x 3) * sg (x 1) (x 2) * sg (x 2) (x 7) := by
      intro x
      simp [listW, leavesD, ofLists, ew, odd, Graph.vf, graph, Graph.ty, Phase.u_zero, u1, sg]
    simp only [e, listSum]
    simp [sg]
  · intro v
    rw [leavesD_alive]
    simp
    omega
  · intro v
    rw [leavesD_ty]
    simp
    tauto

/-- **C75.** A vertex with two leaves is taken for a gadget: the phase of one of them is fused, although the other one
makes it irrelevant. -/
theorem c75_leaves : leavesD.Good ∧ ∃ D', leavesD.checkAndFuseGadget 0 = some (D', true) ∧ ¬ leavesD.SameC D' := by
  refine ⟨leavesD_good, ?_⟩
  have al := leavesD_alive
  have a0 : leavesD.Alive 0 := (al 0).2 (by simp)
  obtain ⟨e1, inv1⟩ := addPhase_eq leavesD_good.inv a0 (Phase.ofRat 1)
  set E := leavesD.phased 0 (Phase.ofRat 1) with hE
  have st := phased_step leavesD_good.inv (V := ∅) ((leavesD_ty 0).2 (by simp)) pi_inRange (fun _ _ => False)
  have al1 : ∀ v, E.Alive v ↔ v < 8 := fun v => by rw [← al]; exact st.alive v
  have ty1 : ∀ v, (graph E).ty v = (graph leavesD).ty v := fun v => st.ty v
  have a6 := (al1 6).2 (by simp)
  have inv2 := without_inv inv1 a6
  have al2 : ∀ v, (E.without 6).Alive v ↔ v < 8 ∧ v ≠ 6 := fun v => by rw [without_alive, al1]
  have a4 := (al2 4).2 (by simp)
  have inv3 := without_inv inv2 a4
  refine ⟨(E.without 6).without 4, ?_, ?_⟩
  · have h0 : leavesD.adj 0 = [⟨1, .hadamard⟩] := rfl
    have h1 : leavesD.adj 1 = [⟨0, .hadamard⟩, ⟨3, .hadamard⟩, ⟨2, .hadamard⟩] := rfl
    have h2 : leavesD.adj 2 = [⟨1, .hadamard⟩, ⟨4, .hadamard⟩, ⟨7, .hadamard⟩] := rfl
    have h4 : leavesD.adj 4 = [⟨5, .hadamard⟩, ⟨6, .hadamard⟩, ⟨2, .hadamard⟩] := rfl
    have h5 : leavesD.adj 5 = [⟨4, .hadamard⟩] := rfl
    have h6 : leavesD.adj 6 = [⟨4, .hadamard⟩] := rfl
    have t0 : leavesD.type 0 = some .z := by simp [type, leavesD, ofLists]
    have t5 : leavesD.type 5 = some .z := by simp [type, leavesD, ofLists]
    have t6 : leavesD.type 6 = some .z := by simp [type, leavesD, ofLists]
    have t2 : leavesD.type 2 = some .z := by simp [type, leavesD, ofLists]
    have p0 : leavesD.phase 0 = some Phase.zero := by simp [phase, leavesD, ofLists]
    have p1 : leavesD.phase 1 = some Phase.zero := by simp [phase, leavesD, ofLists]
    have p4 : leavesD.phase 4 = some Phase.zero := by simp [phase, leavesD, ofLists]
    have p6 : leavesD.phase 6 = some (Phase.ofRat 1) := by simp [phase, leavesD, ofLists]
    have hz := Phase.isPauli_zero
    have hz' := Phase.isZero_zero
    have q4 : leavesD.isPauli 4 := ⟨_, p4, hz⟩
    have scan : gadgetScan leavesD 1 (leavesD.adj 4) none = some (true, some 6) := by
      rw [h4]
      simp [gadgetScan, al, t5, t6, t2, h5, h6, h2, findEdge]
    have search : gadgetSearch leavesD 1 (leavesD.adj 2) none = some (some 4, some 6) := by
      rw [h2]
      simp [gadgetSearch, al, q4, scan, h1]
      simp [h4, findEdge]
    have merge : leavesD.gadgetMerge 0 1 4 6 = some ((E.without 6).without 4) := by
      unfold gadgetMerge
      rw [p1]
      simp only [Option.bind_eq_bind, Option.bind_some]
      rw [if_neg (not_not.2 hz')]
      show ((leavesD.phase 4).bind fun p1 => _) = _
      rw [p4, p6]
      simp only [Option.bind_some]
      rw [if_pos hz', e1, Option.bind_some, removeVertex_eq inv1 a6, Option.bind_some, removeVertex_eq inv2 a4]
    unfold checkAndFuseGadget
    rw [if_pos (by simp [leavesD, ofLists]), h0]
    simp only [t0, Option.bind_eq_bind, Option.bind_some, p1, h1]
    simp [hz, search, merge]
  · rintro ⟨_, _, k, hk, hv⟩
    have := hv (fun _ => 0) (fun v => decide (v = 7))
    rw [leavesD_val, eq_comm, mul_eq_zero] at this
    rcases this with h | h
    · exact hk _ h
    · have u1 : (Phase.zero.add (Phase.ofRat 1)).u (fun _ => 0) = -1 := by
        rw [Phase.u_add, Phase.u_zero, Phase.u_pi]; norm_num
      rw [val_list inv3 _ _ (lv := [0, 1, 2, 5, 3, 7]) (li := [0, 1, 2, 5]) (by decide) (by decide)] at h
      · have e : ∀ x, listW ((E.without 6).without 4) (fun _ => 0) x [0, 1, 2, 5, 3, 7] = (if x 0 = true then -1 else 1) *
            sg (x 0) (x 1) * sg (x 1) (x 3) * sg (x 1) (x 2) * sg (x 2) (x 7) := by
          intro x
          simp [listW, hE, leavesD, ofLists, phased, without, Alive, ew, odd, Graph.vf, graph, Graph.ty, Phase.u_zero, u1, sg]
        simp only [e, listSum] at h
        simp [hE, leavesD, ofLists, phased, without, Phase.u_zero, sg] at h
      · intro v
        rw [without_alive, al2]
        simp
        omega
      · intro v
        rw [without_ty, without_ty, ty1]
        have := leavesD_ty v
        by_cases h4 : v = 4
        · simp [h4]
        · by_cases h6 : v = 6
          · simp [h6]
          · rw [if_neg h4, if_neg h6, this]
            simp [h4, h6]

end MQT.ZX
