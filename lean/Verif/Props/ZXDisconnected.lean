/-
Property C113: removal of the vertices that are not connected to an input or an output (`removeDisconnectedSpiders`).
-/
import Verif.Props.ZXIdentity
import Verif.ZX.Disconnected
import Verif.ZX.BuildGates

set_option autoImplicit false

noncomputable section

open Classical

open Function (update)

namespace MQT.ZX

open Diagram

/-- **C113.** The result has exactly the vertices with a path to an input or an output, with their data and all their edges; the
inputs, the outputs and the global phase are the same. -/
theorem c113_removes {D : Diagram} (h : D.Inv) : ∃ D', D.removeDisconnected = some D' ∧ D'.Inv ∧ D'.inputs = D.inputs ∧
    D'.outputs = D.outputs ∧ D'.globalPhase = D.globalPhase ∧ (∀ v, D'.Alive v ↔ D.Alive v ∧ D.Linked v) ∧
      ∀ v, D'.Alive v → D'.vert v = D.vert v ∧ D'.adj v = D.adj v := by
  obtain ⟨D', h1, p⟩ := removeDisconnected_spec h
  have ha : ∀ v, D'.Alive v ↔ D.Alive v ∧ D.Linked v := by
    intro v
    rw [p.alive, loose, Finset.mem_filter, h.mem_verts]
    tauto
  refine ⟨D', h1, p.inv, p.inputs, p.outputs, p.gp, ha, fun v hv => ⟨?_, ?_⟩⟩
  · rw [p.vert, if_neg ((p.alive v).1 hv).2]
  · exact p.adj v ((ha v).1 hv).1 ((ha v).1 hv).2

/-- **C113.** The linear map is that of the result, multiplied by the number that is denoted by the removed vertices. -/
theorem c113_val {D D' : Diagram} (h : D.Inv) (hb : ∀ v, D.Alive v → (graph D).ty v = .boundary → v ∈ D.inputs ++ D.outputs)
    (hr : D.removeDisconnected = some D') (ρ : ℕ → ℝ) (β : ℕ → Bool) : D.val ρ β = D.looseVal ρ * D'.val ρ β := by
  obtain ⟨E, h1, p⟩ := removeDisconnected_spec h
  obtain rfl := Option.some.inj (hr.symm.trans h1)
  exact p.val h hb ρ β

/-- **C113.** The linear map is the same up to a positive factor if the removed vertices denote a positive number.
Missing from C113: other numbers (`c113_zero`, `c113_phase`). -/
theorem c113_same_partial {D D' : Diagram} (h : D.Inv) (hb : ∀ v, D.Alive v → (graph D).ty v = .boundary → v ∈ D.inputs ++ D.outputs)
    (hr : D.removeDisconnected = some D') {k : ℝ} (hk : 0 < k) (hl : ∀ ρ, D.looseVal ρ = k) : Same D D' := by
  obtain ⟨E, h1, -, i, o, -⟩ := c113_removes h
  obtain rfl := Option.some.inj (hr.symm.trans h1)
  refine ⟨i, o, k, hk, fun ρ β => ?_⟩
  rw [c113_val h hb hr, hl]

/-- **C113.** In particular if there is nothing to remove. -/
theorem c113_nothing_partial {D D' : Diagram} (h : D.Inv) (hl : ∀ v, D.Alive v → D.Linked v) (hr : D.removeDisconnected = some D') :
    Same D D' ∧ ∀ v, D'.vert v = D.vert v := by
  obtain ⟨E, h1, p⟩ := removeDisconnected_spec h
  obtain rfl := Option.some.inj (hr.symm.trans h1)
  have h0 : D.loose = ∅ := Finset.filter_eq_empty_iff.2 fun v hv => not_not.2 (hl v (h.mem_verts.1 hv))
  rw [h0] at p
  have hv : ∀ v, D'.vert v = D.vert v := fun v => by rw [p.vert, if_neg (by simp)]
  have ha : ∀ v, D'.Alive v ↔ D.Alive v := fun v => by rw [p.alive]; simp
  have hV : D'.verts = D.verts := by
    ext v
    rw [p.inv.mem_verts, h.mem_verts, ha]
  have hI : D'.inner = D.inner := by
    unfold inner
    rw [hV]
    apply Finset.filter_congr
    intro v _
    unfold Graph.ty
    show ((D'.vert v).map _).getD _ ≠ _ ↔ ((D.vert v).map _).getD _ ≠ _
    rw [hv]
  refine ⟨⟨p.inputs, p.outputs, 1, one_pos, fun ρ β => ?_⟩, hv⟩
  unfold val
  rw [hV, hI, p.gp, Complex.ofReal_one, one_mul]
  congr 1
  apply sumOver_congr
  intro x
  refine Graph.W_congr ρ (fun v _ => (hv v).symm) (fun u hu v hv' t => ?_) fun _ _ => rfl
  show (if D.Alive u ∧ D.Alive v then D.mult u v t else 0) = (if D'.Alive u ∧ D'.Alive v then D'.mult u v t else 0)
  rw [ha, ha]
  unfold mult
  rw [p.adj u (h.mem_verts.1 hu) (hl u (h.mem_verts.1 hu))]

/-! ### Examples -/

/-- A wire, and a Z spider with the phase `φ`. -/
def looseWire (φ : Phase) : Diagram := ofLists [.boundary, .boundary, .z] (fun v => if v = 2 then φ else Phase.zero)
  [[⟨1, .simple⟩], [⟨0, .simple⟩], []] [0] [1]

theorem looseWire_inv (φ : Phase) : (looseWire φ).Inv := ofLists_inv (by decide)

theorem looseWire_alive (φ : Phase) (v : ℕ) : (looseWire φ).Alive v ↔ v = 0 ∨ v = 1 ∨ v = 2 := by
  unfold looseWire
  rw [ofLists_alive]
  simp
  omega

theorem looseWire_linked (φ : Phase) {v : ℕ} (hv : (looseWire φ).Alive v) : (looseWire φ).Linked v ↔ v ≠ 2 := by
  constructor
  · rintro ⟨w, hw, hm⟩ rfl
    rcases Relation.ReflTransGen.cases_head hw with rfl | ⟨b, ⟨e, he, -⟩, -⟩
    · exact absurd hm (by decide : (2 : ℕ) ∉ [0, 1])
    · exact absurd (show e ∈ ([] : List Edge) from he) (by simp)
  · intro hne
    refine ⟨v, .refl, ?_⟩
    show v ∈ [0, 1]
    rcases (looseWire_alive φ v).1 hv with rfl | rfl | rfl
    · simp
    · simp
    · exact absurd rfl hne

theorem looseWire_loose (φ : Phase) : (looseWire φ).loose = {2} := by
  ext v
  unfold loose
  rw [Finset.mem_filter, (looseWire_inv φ).mem_verts, Finset.mem_singleton]
  constructor
  · rintro ⟨a, b⟩
    by_contra hc
    exact b ((looseWire_linked φ a).2 hc)
  · rintro rfl
    have a := (looseWire_alive φ 2).2 (by simp)
    exact ⟨a, fun hl => (looseWire_linked φ a).1 hl rfl⟩

theorem looseWire_looseVal (φ : Phase) (ρ : ℕ → ℝ) : (looseWire φ).looseVal ρ = 1 + φ.u ρ := by
  unfold looseVal
  rw [looseWire_loose, ← insert_empty_eq, sumOver_insert (Finset.notMem_empty 2), sumOver_empty]
  have hv : (graph (looseWire φ)).vert 2 = some ⟨0, φ, .z⟩ := rfl
  unfold Graph.W Graph.vf
  simp [hv]

/-- The wire is left, and the factor of the spider is lost. -/
theorem looseWire_removed (φ : Phase) : ∃ D', (looseWire φ).removeDisconnected = some D' ∧
    (∀ ρ y x, entry ρ D' y x = if y 0 = x 0 then 1 else 0) ∧
      ∀ ρ β, (looseWire φ).val ρ β = (1 + φ.u ρ) * D'.val ρ β := by
  have hi := looseWire_inv φ
  obtain ⟨D', h1, inv, hin, hout, hgp, ha, hd⟩ := c113_removes hi
  have hal : ∀ v, D'.Alive v ↔ v = 0 ∨ v = 1 := by
    intro v
    rw [ha]
    constructor
    · rintro ⟨a, l⟩
      have := (looseWire_linked φ a).1 l
      have := (looseWire_alive φ v).1 a
      omega
    · intro hv
      have a : (looseWire φ).Alive v := (looseWire_alive φ v).2 (by omega)
      exact ⟨a, (looseWire_linked φ a).2 (by omega)⟩
  have a0 := (hal 0).2 (by simp)
  have a1 := (hal 1).2 (by simp)
  have hty : ∀ v, (graph D').ty v = .boundary := by
    intro v
    unfold Graph.ty
    show ((D'.vert v).map _).getD _ = _
    by_cases hv : D'.Alive v
    · rw [(hd v hv).1]
      rcases (hal v).1 hv with rfl | rfl <;> rfl
    · have : D'.vert v = none := by
        by_contra hc
        exact hv (Option.ne_none_iff_exists'.1 hc)
      rw [this]
      rfl
  have hin' : D'.inputs = [0] := hin
  have hout' : D'.outputs = [1] := hout
  have P : Ports 1 D' := by
    refine ⟨inv, by rw [hin']; rfl, by rw [hout']; rfl, by rw [hin', hout']; decide, ?_, fun v _ => hty v⟩
    intro v hv
    rw [hin', hout'] at hv
    exact (hal v).2 (by simpa using hv)
  have e0 : D'.adj 0 = [⟨1, .simple⟩] := (hd 0 a0).2
  have e1 : D'.adj 1 = [⟨0, .simple⟩] := (hd 1 a1).2
  have hid : D'.isIdentity = some true := by
    refine (c109_iff P).2 ⟨by rw [hgp]; exact ⟨rfl, rfl⟩, ?_, ?_⟩
    · intro k hk
      obtain rfl : k = 0 := by omega
      rw [hin', hout']
      exact ⟨.simple, e0, e1⟩
    · intro v hv hn
      rw [hin', hout'] at hn
      exact absurd ((hal v).1 hv) (by simpa using hn)
  have h0 : D'.inner = ∅ := Finset.filter_eq_empty_iff.2 fun v _ hc => hc (hty v)
  refine ⟨D', h1, fun ρ y x => ?_, fun ρ β => ?_⟩
  · rw [c109_sound_partial P hid h0]
    · simp
    · intro k hk
      obtain rfl : k = 0 := by omega
      unfold wireTy end1
      rw [hin']
      show ((D'.adj 0).headD _).type = _
      rw [e0]
      rfl
  · rw [c113_val hi ?_ h1, looseWire_looseVal]
    intro v hv hb
    rcases (looseWire_alive φ v).1 hv with rfl | rfl | rfl
    · exact (by decide : (0 : ℕ) ∈ [0, 1])
    · exact (by decide : (1 : ℕ) ∈ [0, 1])
    · exact absurd hb (by rw [show (graph (looseWire φ)).ty 2 = .z from rfl]; decide)

/-- Without phase the spider is the number 2, and the result is the same linear map. -/
example : ∃ D', (looseWire Phase.zero).removeDisconnected = some D' ∧ (∀ ρ y x, entry ρ D' y x = if y 0 = x 0 then 1 else 0) ∧
    ∀ ρ β, (looseWire Phase.zero).val ρ β = 2 * D'.val ρ β := by
  obtain ⟨D', h1, h2, h3⟩ := looseWire_removed Phase.zero
  refine ⟨D', h1, h2, fun ρ β => ?_⟩
  rw [h3, Phase.u_zero]
  norm_num

/-- **C113 fails.** A diagram with the linear map 0 becomes the identity. -/
theorem c113_zero : (looseWire (Phase.ofRat 1)).Good ∧ (∀ ρ β, (looseWire (Phase.ofRat 1)).val ρ β = 0) ∧
    ∃ D', (looseWire (Phase.ofRat 1)).removeDisconnected = some D' ∧ (∀ ρ y x, entry ρ D' y x = if y 0 = x 0 then 1 else 0) ∧
      ¬ Same (looseWire (Phase.ofRat 1)) D' := by
  obtain ⟨D', h1, h2, h3⟩ := looseWire_removed (Phase.ofRat 1)
  have h0 : ∀ ρ β, (looseWire (Phase.ofRat 1)).val ρ β = 0 := fun ρ β => by rw [h3, Build.u_one]; simp
  refine ⟨zeroWire_good, h0, D', h1, h2, ?_⟩
  rintro ⟨-, -, k, hk, h⟩
  have a := h (fun _ => 0) (bitsOf D'.inputs D'.outputs (fun _ => false) fun _ => false)
  rw [h0, show D'.val (fun _ => 0) (bitsOf D'.inputs D'.outputs (fun _ => false) fun _ => false) = 1 from
    (h2 (fun _ => 0) (fun _ => false) fun _ => false).trans (if_pos rfl), mul_one] at a
  exact hk.ne (Complex.ofReal_injective (by simpa using a))

/-- **C113 fails.** The phase of the removed number is lost: `1 + i` times the identity becomes the identity, with the same global
phase. -/
theorem c113_phase : ∃ D', (looseWire (Phase.ofRat (1 / 2))).removeDisconnected = some D' ∧
    D'.globalPhase = (looseWire (Phase.ofRat (1 / 2))).globalPhase ∧
      (∀ ρ β, (looseWire (Phase.ofRat (1 / 2))).val ρ β = (1 + Complex.I) * D'.val ρ β) ∧
        ¬ Same (looseWire (Phase.ofRat (1 / 2))) D' := by
  obtain ⟨D', h1, h2, h3⟩ := looseWire_removed (Phase.ofRat (1 / 2))
  obtain ⟨E, e1, -, -, -, hg, -⟩ := c113_removes (looseWire_inv (Phase.ofRat (1 / 2)))
  obtain rfl := Option.some.inj (h1.symm.trans e1)
  have h0 : ∀ ρ β, (looseWire (Phase.ofRat (1 / 2))).val ρ β = (1 + Complex.I) * D'.val ρ β := fun ρ β => by rw [h3, Build.u_half]
  refine ⟨D', h1, hg, h0, ?_⟩
  rintro ⟨-, -, k, hk, h⟩
  have a := h (fun _ => 0) (bitsOf D'.inputs D'.outputs (fun _ => false) fun _ => false)
  rw [h0, show D'.val (fun _ => 0) (bitsOf D'.inputs D'.outputs (fun _ => false) fun _ => false) = 1 from
    (h2 (fun _ => 0) (fun _ => false) fun _ => false).trans (if_pos rfl), mul_one, mul_one] at a
  have := congrArg Complex.im a
  simp at this

end MQT.ZX
