/-
Properties C109 and C110: the test for the identity (`isIdentity`) and ancillas (`makeAncilla`).
-/
import Verif.Props.ZXConcat
import Verif.ZX.Ancilla

set_option autoImplicit false

noncomputable section

open Classical

open Function (update)

namespace MQT.ZX

open Diagram

/-! ### The identity -/

/-- **C109.** `isIdentity` holds iff there is no global phase, every input is joined with the output of the same number, and
there are no other edges. -/
theorem c109_iff {n : ℕ} {D : Diagram} (P : Ports n D) : D.isIdentity = some true ↔
    D.globalPhase.isZero ∧
      (∀ k < n, ∃ t, D.adj (D.inputs.getD k 0) = [⟨D.outputs.getD k 0, t⟩] ∧ D.adj (D.outputs.getD k 0) = [⟨D.inputs.getD k 0, t⟩]) ∧
      ∀ v, D.Alive v → v ∉ D.inputs ++ D.outputs → D.adj v = [] := by
  rw [isIdentity_iff P]
  exact ⟨fun h => ⟨h.phase, h.wire, h.none⟩, fun h => ⟨h.1, h.2.1, h.2.2⟩⟩

/-- **C109.** It always has a result. -/
theorem c109_total {n : ℕ} {D : Diagram} (P : Ports n D) : ∃ b, D.isIdentity = some b := by
  have key : ∀ (l m : List ℕ), l.length ≤ m.length → ∃ b, D.paired l m = some b := by
    intro l
    induction l with
    | nil => exact fun m _ => ⟨true, rfl⟩
    | cons a l ih =>
      intro m hm
      cases m with
      | nil => simp at hm
      | cons b m =>
        unfold paired
        split
        · exact ih m (by simpa using hm)
        · exact ⟨false, rfl⟩
  unfold isIdentity
  split
  · exact ⟨false, rfl⟩
  · exact key _ _ (by rw [P.inL, P.outL])

/-- **C109.** With fewer outputs than inputs, all of them joined with the inputs of the same number, the outputs are read beyond
their end. -/
theorem c109_few {D : Diagram} (he : D.nedges = (D.inputs.length : ℤ)) (hg : D.globalPhase.isZero)
    (hl : D.outputs.length < D.inputs.length)
    (hc : ∀ k < D.outputs.length, D.connected (D.inputs.getD k 0) (D.outputs.getD k 0) = true) : D.isIdentity = none := by
  have key : ∀ (l m : List ℕ), m.length < l.length → (∀ k < m.length, D.connected (l.getD k 0) (m.getD k 0) = true) →
      D.paired l m = none := by
    intro l
    induction l with
    | nil => intro m hm; simp at hm
    | cons a l ih =>
      intro m hm hk
      cases m with
      | nil => rfl
      | cons b m =>
        unfold paired
        rw [if_pos (by simpa using hk 0 (by simp))]
        exact ih m (by simpa using hm) fun k h => by simpa using hk (k + 1) (by simpa using h)
  unfold isIdentity
  rw [if_neg (by push Not; exact ⟨he, hg⟩)]
  exact key _ _ hl hc

/-- **C109.** The linear map of a diagram that is said to be the identity: a plain or a Hadamard edge on each qubit, and a
factor `1 + exp(i φ)` for every spider. -/
theorem c109_entry {n : ℕ} {D : Diagram} (P : Ports n D) (h : D.isIdentity = some true) (ρ : ℕ → ℝ) (y x : ℕ → Bool) :
    entry ρ D y x = (∏ v ∈ D.inner, (1 + (D.phaseOf v).u ρ)) *
      ∏ k ∈ Finset.range n, ew (D.wireTy k) .boundary .boundary (y k) (x k) :=
  wires_entry P ((isIdentity_iff P).1 h) ρ y x

/-- **C109.** A diagram without spiders and with plain edges at the inputs that is said to be the identity is the identity.
Missing from C109: Hadamard edges (`c109_hadamard`) and spiders without edges (`c109_scalar`). -/
theorem c109_sound_partial {n : ℕ} {D : Diagram} (P : Ports n D) (h : D.isIdentity = some true) (h0 : D.inner = ∅)
    (hs : ∀ k < n, D.wireTy k = .simple) (ρ : ℕ → ℝ) (y x : ℕ → Bool) : entry ρ D y x = if ∀ k < n, y k = x k then 1 else 0 := by
  rw [c109_entry P h, h0, Finset.prod_empty, one_mul]
  have : ∀ k ∈ Finset.range n, ew (D.wireTy k) .boundary .boundary (y k) (x k) = if y k = x k then 1 else 0 := by
    intro k hk
    rw [hs k (Finset.mem_range.1 hk)]
    simp [ew, odd]
  rw [Finset.prod_congr rfl this]
  split
  next hc => exact Finset.prod_eq_one fun k hk => if_pos (hc k (Finset.mem_range.1 hk))
  next hc =>
    push Not at hc
    obtain ⟨k, hk, hne⟩ := hc
    exact Finset.prod_eq_zero (Finset.mem_range.2 hk) (if_neg hne)

/-! ### Examples -/

theorem twoWires_ports : Ports 2 twoWires where
  inv := twoWires_good.inv
  inL := rfl
  outL := rfl
  nodup := by decide
  alive v hv := (four_alive _ v).2 hv
  ty v hv := by
    by_contra hc
    cases (four_ty _ v).1 hc

example : twoWires.isIdentity = some true := by
  refine (c109_iff twoWires_ports).2 ⟨⟨rfl, rfl⟩, ?_, ?_⟩
  · intro k hk
    match k with
    | 0 => exact ⟨.simple, rfl, rfl⟩
    | 1 => exact ⟨.simple, rfl, rfl⟩
    | k + 2 => omega
  · intro v hv hn
    exact absurd ((four_alive _ v).1 hv) hn

/-- The second output is missing. -/
example : ({ twoWires with outputs := [2] } : Diagram).isIdentity = none := by
  refine c109_few rfl ⟨rfl, rfl⟩ (by decide) fun k hk => ?_
  match k with
  | 0 => exact connected_iff.2 ⟨twoWires_ports.alive 0 (by decide), twoWires_ports.alive 2 (by decide), .simple, List.mem_singleton.2 rfl⟩
  | k + 1 => exact absurd hk (by simp)

/-- The two wires of the example joined with the wrong outputs. -/
def crossed : Diagram := { twoWires with outputs := [3, 2] }

theorem crossed_ports : Ports 2 crossed := by
  obtain ⟨h, _, _, _, a, t⟩ := twoWires_ports
  refine ⟨⟨h.out, h.del, h.nodup, h.nv, h.ne, h.sym, h.nb⟩, rfl, rfl, by decide, ?_, ?_⟩
  · intro v hv
    exact a v ((show [0, 1, 3, 2] ⊆ [0, 1, 2, 3] by decide) hv)
  · intro v hv
    exact t v ((show [0, 1, 3, 2] ⊆ [0, 1, 2, 3] by decide) hv)

example : crossed.isIdentity = some false := by
  obtain ⟨b, hb⟩ := c109_total crossed_ports
  cases b with
  | false => exact hb
  | true =>
    obtain ⟨-, h, -⟩ := (c109_iff crossed_ports).1 hb
    obtain ⟨t, e, -⟩ := h 0 (by omega)
    have e' : [(⟨2, .simple⟩ : Edge)] = [⟨3, t⟩] := e
    simp at e'

/-! The type of the edges is not looked at. -/

/-- A Hadamard edge between an input and an output, the diagram of a Hadamard gate. -/
def hWire : Diagram := ofLists [.boundary, .boundary] (fun _ => Phase.zero) [[⟨1, .hadamard⟩], [⟨0, .hadamard⟩]] [0] [1]

theorem hWire_good : hWire.Good := ofLists_good (by decide) (by decide) fun _ => zero_range

theorem hWire_alive (v : ℕ) : hWire.Alive v ↔ v ∈ [0, 1] := by
  unfold hWire
  rw [ofLists_alive]
  simp
  omega

theorem hWire_ty (v : ℕ) : (graph hWire).ty v = .boundary := by
  unfold hWire
  rw [ofLists_ty]
  match v with
  | 0 => rfl
  | 1 => rfl
  | v + 2 => rfl

theorem hWire_ports : Ports 1 hWire :=
  ⟨hWire_good.inv, rfl, rfl, by decide, fun v hv => (hWire_alive v).2 hv, fun v _ => hWire_ty v⟩

theorem hWire_isIdentity : hWire.isIdentity = some true := by
  refine (c109_iff hWire_ports).2 ⟨⟨rfl, rfl⟩, ?_, ?_⟩
  · intro k hk
    match k with
    | 0 => exact ⟨.hadamard, rfl, rfl⟩
    | k + 1 => omega
  · intro v hv hn
    exact absurd ((hWire_alive v).1 hv) hn

/-- **C109 fails.** The diagram of a Hadamard gate is said to be the identity. -/
theorem c109_hadamard : hWire.Good ∧ Ports 1 hWire ∧ hWire.isIdentity = some true ∧
    (∀ ρ y x, entry ρ hWire y x = if y 0 && x 0 then -1 else 1) ∧
    ¬ ∃ k : ℂ, ∀ ρ y x, entry ρ hWire y x = k * if ∀ j < 1, y j = x j then 1 else 0 := by
  have he : ∀ ρ y x, entry ρ hWire y x = if y 0 && x 0 then -1 else 1 := by
    intro ρ y x
    rw [c109_entry hWire_ports hWire_isIdentity]
    have : hWire.inner = ∅ := by
      unfold inner
      apply Finset.filter_eq_empty_iff.2
      intro v _ hc
      exact hc (hWire_ty v)
    rw [this, Finset.prod_empty, one_mul, Finset.prod_range_one, show hWire.wireTy 0 = .hadamard from rfl]
    simp [ew, odd]
  refine ⟨hWire_good, hWire_ports, hWire_isIdentity, he, ?_⟩
  rintro ⟨k, h⟩
  have := h (fun _ => 0) (fun _ => false) (fun _ => true)
  rw [he] at this
  simp at this

/-! Spiders without edges are not looked at. -/

/-- A wire, and a Z spider with the phase π. -/
def zeroWire : Diagram := ofLists [.boundary, .boundary, .z] (fun v => if v = 2 then Phase.ofRat 1 else Phase.zero)
  [[⟨1, .simple⟩], [⟨0, .simple⟩], []] [0] [1]

theorem zeroWire_good : zeroWire.Good := ofLists_good (by decide) (by decide) fun v => by
  split
  · exact ofRat_range (by norm_num)
  · exact zero_range

theorem zeroWire_alive (v : ℕ) : zeroWire.Alive v ↔ v ∈ [0, 1, 2] := by
  unfold zeroWire
  rw [ofLists_alive]
  simp
  omega

theorem zeroWire_ports : Ports 1 zeroWire := by
  refine ⟨zeroWire_good.inv, rfl, rfl, by decide, fun v hv => (zeroWire_alive v).2 ?_, fun v hv => ?_⟩
  · exact (show [0, 1] ⊆ [0, 1, 2] by decide) hv
  · have : v = 0 ∨ v = 1 := by simpa using (show v ∈ [0, 1] from hv)
    rcases this with rfl | rfl <;> rfl

/-- **C109 fails.** A diagram with the linear map 0 is said to be the identity. -/
theorem c109_scalar : zeroWire.Good ∧ Ports 1 zeroWire ∧ zeroWire.isIdentity = some true ∧ ∀ ρ y x, entry ρ zeroWire y x = 0 := by
  have hid : zeroWire.isIdentity = some true := by
    refine (c109_iff zeroWire_ports).2 ⟨⟨rfl, rfl⟩, ?_, ?_⟩
    · intro k hk
      match k with
      | 0 => exact ⟨.simple, rfl, rfl⟩
      | k + 1 => omega
    · intro v hv hn
      have h1 := (zeroWire_alive v).1 hv
      have h2 : v ∉ [0, 1] := hn
      have : v = 2 := by
        simp at h1 h2
        omega
      rw [this]
      rfl
  refine ⟨zeroWire_good, zeroWire_ports, hid, fun ρ y x => ?_⟩
  rw [c109_entry zeroWire_ports hid]
  have hm : 2 ∈ zeroWire.inner :=
    Finset.mem_filter.2 ⟨zeroWire_good.inv.mem_verts.2 ((zeroWire_alive 2).2 (by decide)), by
      rw [show (graph zeroWire).ty 2 = .z from rfl]
      decide⟩
  rw [Finset.prod_eq_zero hm, zero_mul]
  rw [show zeroWire.phaseOf 2 = Phase.ofRat 1 from rfl, Phase.u_ofRat]
  simp

/-! ### Ancillas -/

/-- **C110.** `makeAncilla` removes an input and an output; the linear map of the result is that of the diagram with a bit 0 at
the removed input and output, up to a positive factor.
Missing from C110: the qubits of the other inputs and outputs (`c110_stale`). -/
theorem c110_ancilla_partial {D : Diagram} (h : D.Inv) (hn : (D.inputs ++ D.outputs).Nodup) {i o a b : ℕ}
    (hi : D.inputs[i]? = some a) (ho : D.outputs[o]? = some b) (ha : D.Port a) (hb : D.Port b) :
    ∃ F, D.makeAncilla i o = some F ∧ F.Inv ∧ F.inputs = D.inputs.eraseIdx i ∧ F.outputs = D.outputs.eraseIdx o ∧
      ∃ k : ℝ, 0 < k ∧ ∀ ρ y x, entry ρ F y x = k * entry ρ D (ins0 o y) (ins0 i x) :=
  makeAncilla_spec h hn hi ho ha hb

/-- **C110.** The number of vertices and the edges are those of the diagram. -/
theorem c110_edges {D F : Diagram} {i o : ℕ} (h : D.makeAncilla i o = some F) :
    F.adj = D.adj ∧ F.nvertices = D.nvertices ∧ F.nedges = D.nedges ∧ F.globalPhase = D.globalPhase := by
  unfold makeAncilla at h
  split at h
  · cases h
    exact ⟨rfl, rfl, rfl, rfl⟩
  · cases h

theorem twoWires_port {v : ℕ} (h : v < 4) : twoWires.Port v := by
  match v, h with
  | 0, _ => exact ⟨rfl, _, rfl, rfl, rfl, rfl⟩
  | 1, _ => exact ⟨rfl, _, rfl, rfl, rfl, rfl⟩
  | 2, _ => exact ⟨rfl, _, rfl, rfl, rfl, rfl⟩
  | 3, _ => exact ⟨rfl, _, rfl, rfl, rfl, rfl⟩
  | v + 4, h => omega

/-- One of two wires is left. -/
example : ∃ F, twoWires.makeAncilla 0 0 = some F ∧ F.inputs = [1] ∧ F.outputs = [3] ∧
    ∃ k : ℝ, 0 < k ∧ ∀ ρ y x, entry ρ F y x = k * if y 0 = x 0 then 1 else 0 := by
  obtain ⟨F, e, -, h1, h2, k, hk, h⟩ := c110_ancilla_partial (i := 0) (o := 0) twoWires_good.inv (by decide) rfl rfl
    (twoWires_port (v := 0) (by omega)) (twoWires_port (v := 2) (by omega))
  refine ⟨F, e, h1, h2, k, hk, fun ρ y x => ?_⟩
  rw [h, twoWires_entry]
  simp [ins0]

/-- The input of one wire and the output of the other: what is left is the projection on 0. -/
example : ∃ F, twoWires.makeAncilla 0 1 = some F ∧
    ∃ k : ℝ, 0 < k ∧ ∀ ρ y x, entry ρ F y x = k * if y 0 = false ∧ x 0 = false then 1 else 0 := by
  obtain ⟨F, e, -, -, -, k, hk, h⟩ := c110_ancilla_partial (i := 0) (o := 1) twoWires_good.inv (by decide) rfl rfl
    (twoWires_port (v := 0) (by omega)) (twoWires_port (v := 3) (by omega))
  refine ⟨F, e, k, hk, fun ρ y x => ?_⟩
  rw [h, twoWires_entry]
  cases hy : y 0 <;> cases hx : x 0 <;> simp [ins0, hx, hy]

/-- Two wires on the qubits 0 and 1. -/
def twoQ : Diagram :=
  { twoWires with vert := fun v => (twoWires.vert v).map fun d => { d with qubit := if v = 1 ∨ v = 3 then 1 else 0 } }

/-- **C110 fails.** The remaining input is on qubit 1 of a diagram with one qubit, so that concatenation with the result reads
beyond the end of the outputs. -/
theorem c110_stale : ∃ F, twoQ.makeAncilla 0 0 = some F ∧ F.inputs = [1] ∧ F.outputs = [3] ∧
    (F.vert 1).map VData.qubit = some 1 ∧ xWire.inputs.length = F.inputs.length ∧ xWire.concat F = none :=
  ⟨_, rfl, rfl, rfl, rfl, rfl, rfl⟩

end MQT.ZX
