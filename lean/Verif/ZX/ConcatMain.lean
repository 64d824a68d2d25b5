/-
Concatenation of diagrams: the composition of the linear maps.
-/
import Verif.ZX.ConcatSem

set_option autoImplicit false

noncomputable section

open Classical

open Function (update)

namespace MQT.ZX

open Diagram

namespace Diagram

variable {n : ℕ} {D R : Diagram}

/-- The factor lost with one wire. -/
def jconst (D R : Diagram) (p : ℕ) : ℝ :=
  if odd (D.end1 (D.partner R p)).type .boundary ((graph D).ty (D.end1 (D.partner R p)).tgt) &&
    odd (R.end1 p).type .boundary ((graph R).ty (R.end1 p).tgt) then 2 else 1

theorem jconst_pos (p : ℕ) : 0 < jconst D R p := by
  unfold jconst
  split_ifs <;> norm_num

theorem getD_mem {l : List ℕ} {k : ℕ} (hk : k < l.length) : l.getD k 0 ∈ l := by
  rw [List.getD_eq_getElem?_getD, List.getElem?_eq_getElem hk]
  exact List.getElem_mem hk

theorem idxOf_getD {l : List ℕ} (hl : l.Nodup) {k : ℕ} (hk : k < l.length) : l.idxOf (l.getD k 0) = k := by
  rw [List.getD_eq_getElem?_getD, List.getElem?_eq_getElem hk]
  exact hl.idxOf_getElem k hk

theorem idxOf_map_inj {f : ℕ → ℕ} : ∀ {l : List ℕ} {a : ℕ}, (∀ b ∈ l, f b = f a → b = a) → (l.map f).idxOf (f a) = l.idxOf a
  | [], _, _ => rfl
  | b :: l, a, h => by
    rw [List.map_cons, List.idxOf_cons, List.idxOf_cons]
    by_cases hb : b = a
    · subst hb; simp
    · have hb' : f b ≠ f a := fun e => hb (h b List.mem_cons_self e)
      simp only [beq_eq_false_iff_ne.2 hb, beq_eq_false_iff_ne.2 hb', cond_false]
      rw [idxOf_map_inj fun c hc => h c (List.mem_cons_of_mem _ hc)]

theorem concat_spec (J : Joins n D R) : ∃ F, concat D R = some F ∧ F.Inv ∧ F.inputs = D.inputs ∧ F.outputs.length = n ∧
    F.globalPhase = D.globalPhase.add R.globalPhase.neg ∧
    ∃ k : ℝ, 0 < k ∧ ∀ ρ y x, sumOver (Finset.range n) (fun z => entry ρ R y z * entry ρ D z x) (fun _ => false) =
      k * R.globalPhase.u ρ ^ 2 * entry ρ F y x := by
  have hO : ∀ o ∈ D.outputs.toFinset, D.Alive o := fun o ho => J.endsD.alive o (List.mem_toFinset.1 ho)
  have C0 : Copied D.outputs.toFinset D R [] D fun _ => 0 :=
    ⟨J.invD, fun _ _ => ⟨rfl, rfl⟩, fun _ h => absurd h List.not_mem_nil, fun _ h => absurd h List.not_mem_nil,
      fun _ h => absurd h List.not_mem_nil, rfl, rfl, rfl, fun _ _ _ => rfl⟩
  have C := copyVerts_spec hO (List.range R.size) [] D _ C0 List.nodup_range
  rw [List.nil_append] at C
  obtain ⟨nw, hnw⟩ : ∃ nw, nw = (copyVerts R (List.range R.size) D fun _ => 0).2 := ⟨_, rfl⟩
  obtain ⟨D1, hD1⟩ : ∃ D1, D1 = (copyVerts R (List.range R.size) D fun _ => 0).1 := ⟨_, rfl⟩
  rw [← hnw, ← hD1] at C
  change Copied D.outputs.toFinset D R R.keptList D1 nw at C
  obtain ⟨D2, e2, S⟩ := copyAll_spec J C
  have hout2 : D2.outputs = D.outputs := S.outputs.trans C.outputs
  have hv2 : ∀ v, D.Alive v → D2.vert v = D.vert v := fun v hv => by rw [S.vert, (C.old v hv).1]
  have hm : ∀ i, R.Kept i → i ∈ R.keptList := fun i hi => (mem_keptList J.invR).2 hi
  obtain ⟨D3, e3, i3, v3, n3, g3, in3, o3, w3⟩ := moveOutputs_spec (R := R) (nw := nw) D.outputs J.endsD.nodup S.inv hout2
    (by
      intro o ho
      obtain ⟨d, hd⟩ := J.endsD.alive o ho
      exact ⟨d, by rw [hv2 o ⟨d, hd⟩, hd]⟩)
    (by
      intro o ho
      rw [ty_congr (hv2 o (J.endsD.alive o ho))]
      exact J.endsD.ty o ho)
    (by rw [J.outR, J.outD]) D.outputs.length le_rfl
  rw [List.take_length] at v3
  have ho3 : D3.outputs = R.outputs.map nw := by
    rw [o3, List.drop_length, List.append_nil, J.outD, ← J.outR, List.take_length]
  have hF : concat D R = some (D3.addGlobalPhase R.globalPhase.neg) := by
    unfold concat
    rw [if_neg (by rw [J.inR, J.inD]; simp)]
    simp only
    rw [← hnw, ← hD1, e2, Option.bind_some, hout2, e3]
    rfl
  have hin3 : D3.inputs = D.inputs := by rw [in3, S.inputs, C.inputs]
  have hg3 : D3.globalPhase = D.globalPhase := by rw [g3, S.gp, C.gp]
  refine ⟨_, hF, ⟨i3.out, i3.del, i3.nodup, i3.nv, i3.ne, i3.sym, i3.nb⟩, hin3, ?_, ?_, ∏ k ∈ Finset.range n, jconst D R (R.inputs.getD k 0),
    Finset.prod_pos fun _ _ => jconst_pos _, ?_⟩
  · show D3.outputs.length = n
    rw [ho3, List.length_map, J.outR]
  · show D3.globalPhase.add _ = _
    rw [hg3]
  intro ρ y x
  -- the matrix entry of the result
  obtain ⟨βF, hβF⟩ : ∃ b, b = bitsOf D.inputs (R.outputs.map nw) x y := ⟨_, rfl⟩
  obtain ⟨βR, hβR⟩ : ∃ b : ℕ → Bool, b = fun i => if i ∈ R.outputs then y (R.outputs.idxOf i) else false := ⟨_, rfl⟩
  have hnd : ∀ i, R.Kept i → nw i ∉ D.inputs := fun i hi hc => (C.new i (hm i hi)).1 (J.alD _ hc).1
  have hFR : ∀ i, R.Kept i → βF (nw i) = βR i := by
    intro i hi
    rw [hβF, hβR]
    unfold bitsOf
    rw [if_neg (hnd i hi)]
    have hmi : nw i ∈ R.outputs.map nw ↔ i ∈ R.outputs := by
      constructor
      · intro h
        obtain ⟨j, hj, e⟩ := List.mem_map.1 h
        rw [← C.inj j (hm j (J.alR j hj)) i (hm i hi) e]
        exact hj
      · exact fun h => List.mem_map.2 ⟨i, h, rfl⟩
    by_cases h : i ∈ R.outputs
    · rw [if_pos (hmi.2 h)]
      simp only
      rw [if_pos h, idxOf_map_inj]
      exact fun b hb e => C.inj b (hm b (J.alR b hb)) i (hm i hi) e
    · rw [if_neg fun h' => h (hmi.1 h')]
      simp only
      rw [if_neg h]
  have hentry : entry ρ (D3.addGlobalPhase R.globalPhase.neg) y x = D.globalPhase.u ρ * (R.globalPhase.u ρ)⁻¹ *
      sumOver D.inner (fun s => (graph D).W ρ (D.verts \ D.outputs.toFinset) s *
        sumOver R.inner (fun r => (graph R).W ρ (R.verts \ R.inputs.toFinset) r * (R.inputs.map (jfac D R s r)).prod) βR) βF := by
    unfold entry
    have e1 : bitsOf (D3.addGlobalPhase R.globalPhase.neg).inputs (D3.addGlobalPhase R.globalPhase.neg).outputs x y = βF := by
      show bitsOf D3.inputs D3.outputs x y = βF
      rw [hin3, ho3, hβF]
    rw [e1]
    have e2' : val ρ (D3.addGlobalPhase R.globalPhase.neg) βF =
        (D3.globalPhase.add R.globalPhase.neg).u ρ * sumOver D3.inner ((graph D3).W ρ D3.verts) βF := rfl
    rw [e2', Phase.u_add, Phase.u_neg, hg3]
    congr 1
    have e3' : sumOver D3.inner ((graph D3).W ρ D3.verts) βF = linOn D.outputs.toFinset ρ D2 (fun _ => 1) βF := by
      unfold linOn
      rw [n3, v3]
      apply sumOver_congr
      intro s
      rw [w3, mul_one]
    rw [e3', S.lin, C.lin]
    unfold linOn
    apply sumOver_congr_on
    intro s hs
    congr 1
    have e4 : (fun x => eprod D R nw x * (fun _ => (1 : ℂ)) x) = eprod D R nw := by
      funext x
      exact mul_one _
    rw [e4, copy_sum J C]
    apply sumOver_base (S := R.verts \ R.inputs.toFinset)
    · intro r r' hr
      rw [W_base ρ _ hr]
      congr 2
      apply List.map_congr_left
      intro p hp
      unfold jfac
      rw [hr]
      rw [Finset.mem_sdiff, J.invR.mem_verts, List.mem_toFinset]
      refine ⟨(J.invR.nb _ (J.endsR.alive p hp) (R.end1 p) ?_).1, J.endsR.ne p hp⟩
      rw [J.endsR.one p hp]
      exact List.mem_singleton.2 rfl
    · intro i hi _
      rw [Finset.mem_sdiff, J.invR.mem_verts, List.mem_toFinset] at hi
      have hk : R.Kept i := hi
      have : pull R nw s i = s (nw i) := if_pos hk
      rw [this, hs (nw i), hFR i hk]
      rw [mem_inner J.invD]
      exact fun hc => (C.new i (hm i hk)).1 (alive_of_inner hc)
  -- the matrix entries of the two diagrams
  have hD : ∀ z, entry ρ D z x = D.globalPhase.u ρ * sumOver D.inner (fun s => (graph D).W ρ (D.verts \ D.outputs.toFinset) s *
      ∏ k ∈ Finset.range n, ew (D.end1 (D.outputs.getD k 0)).type .boundary ((graph D).ty (D.end1 (D.outputs.getD k 0)).tgt) (z k)
        (s (D.end1 (D.outputs.getD k 0)).tgt)) βF := by
    intro z
    unfold entry
    rw [val_ends J.invD J.endsD ρ (z := z) (β' := βF), J.outD]
    · intro k hk
      have hmem := getD_mem hk
      unfold bitsOf
      rw [if_neg fun hc => (J.alD _ hc).2 hmem, if_pos hmem, idxOf_getD J.endsD.nodup hk]
    · intro v hv _
      rw [Finset.mem_sdiff, J.invD.mem_verts, List.mem_toFinset] at hv
      rw [hβF]
      unfold bitsOf
      by_cases h : v ∈ D.inputs
      · rw [if_pos h, if_pos h]
      · rw [if_neg h, if_neg h, if_neg hv.2, if_neg]
        intro hc
        obtain ⟨j, hj, e⟩ := List.mem_map.1 hc
        exact (C.new j (hm j (J.alR j hj))).1 (e ▸ hv.1)
  have hR : ∀ z, entry ρ R y z = R.globalPhase.u ρ * sumOver R.inner (fun r => (graph R).W ρ (R.verts \ R.inputs.toFinset) r *
      ∏ k ∈ Finset.range n, ew (R.end1 (R.inputs.getD k 0)).type .boundary ((graph R).ty (R.end1 (R.inputs.getD k 0)).tgt) (z k)
        (r (R.end1 (R.inputs.getD k 0)).tgt)) βR := by
    intro z
    unfold entry
    rw [val_ends J.invR J.endsR ρ (z := z) (β' := βR), J.inR]
    · intro k hk
      have hmem := getD_mem hk
      unfold bitsOf
      rw [if_pos hmem, idxOf_getD J.endsR.nodup hk]
    · intro v hv _
      rw [Finset.mem_sdiff, J.invR.mem_verts, List.mem_toFinset] at hv
      rw [hβR]
      unfold bitsOf
      rw [if_neg hv.2]
  -- the sum over the bits of the wires
  have hsum : ∀ s r : ℕ → Bool, sumOver (Finset.range n) (fun z =>
      (∏ k ∈ Finset.range n, ew (D.end1 (D.outputs.getD k 0)).type .boundary ((graph D).ty (D.end1 (D.outputs.getD k 0)).tgt) (z k)
        (s (D.end1 (D.outputs.getD k 0)).tgt)) *
      ∏ k ∈ Finset.range n, ew (R.end1 (R.inputs.getD k 0)).type .boundary ((graph R).ty (R.end1 (R.inputs.getD k 0)).tgt) (z k)
        (r (R.end1 (R.inputs.getD k 0)).tgt)) (fun _ => false) =
      ((∏ k ∈ Finset.range n, jconst D R (R.inputs.getD k 0) : ℝ) : ℂ) * (R.inputs.map (jfac D R s r)).prod := by
    intro s r
    simp only [← Finset.prod_mul_distrib]
    rw [sumOver_prod (fun k p => ew (D.end1 (D.outputs.getD k 0)).type .boundary ((graph D).ty (D.end1 (D.outputs.getD k 0)).tgt) p
        (s (D.end1 (D.outputs.getD k 0)).tgt) *
      ew (R.end1 (R.inputs.getD k 0)).type .boundary ((graph R).ty (R.end1 (R.inputs.getD k 0)).tgt) p
        (r (R.end1 (R.inputs.getD k 0)).tgt)), prod_list_range, J.inR, Complex.ofReal_prod, ← Finset.prod_mul_distrib]
    apply Finset.prod_congr rfl
    intro k hk
    have hk' : k < R.inputs.length := by rw [J.inR]; exact Finset.mem_range.1 hk
    have hpk : D.partner R (R.inputs.getD k 0) = D.outputs.getD k 0 := by
      unfold partner
      rw [idxOf_getD J.endsR.nodup hk']
    rw [ew_sum]
    unfold jconst jfac joinType
    rw [hpk]
    congr 1
    · split_ifs <;> simp
    · congr 1
      simp only [ne_eq, ite_not]
  rw [hentry]
  have step1 : ∀ z, entry ρ R y z * entry ρ D z x = (R.globalPhase.u ρ * D.globalPhase.u ρ) * sumOver D.inner (fun s =>
      (graph D).W ρ (D.verts \ D.outputs.toFinset) s * sumOver R.inner (fun r => (graph R).W ρ (R.verts \ R.inputs.toFinset) r *
        ((∏ k ∈ Finset.range n, ew (D.end1 (D.outputs.getD k 0)).type .boundary ((graph D).ty (D.end1 (D.outputs.getD k 0)).tgt) (z k)
          (s (D.end1 (D.outputs.getD k 0)).tgt)) *
        ∏ k ∈ Finset.range n, ew (R.end1 (R.inputs.getD k 0)).type .boundary ((graph R).ty (R.end1 (R.inputs.getD k 0)).tgt) (z k)
          (r (R.end1 (R.inputs.getD k 0)).tgt))) βR) βF := by
    intro z
    rw [hD, hR]
    rw [mul_mul_mul_comm]
    congr 1
    rw [← sumOver_mul]
    apply sumOver_congr
    intro s
    rw [mul_comm, mul_assoc]
    congr 1
    rw [← sumOver_mul]
    apply sumOver_congr
    intro r
    ring
  rw [sumOver_congr step1, sumOver_mul, sumOver_comm]
  have step2 : ∀ s, sumOver (Finset.range n) (fun z =>
      (graph D).W ρ (D.verts \ D.outputs.toFinset) s * sumOver R.inner (fun r => (graph R).W ρ (R.verts \ R.inputs.toFinset) r *
        ((∏ k ∈ Finset.range n, ew (D.end1 (D.outputs.getD k 0)).type .boundary ((graph D).ty (D.end1 (D.outputs.getD k 0)).tgt) (z k)
          (s (D.end1 (D.outputs.getD k 0)).tgt)) *
        ∏ k ∈ Finset.range n, ew (R.end1 (R.inputs.getD k 0)).type .boundary ((graph R).ty (R.end1 (R.inputs.getD k 0)).tgt) (z k)
          (r (R.end1 (R.inputs.getD k 0)).tgt))) βR) (fun _ => false) =
      ((∏ k ∈ Finset.range n, jconst D R (R.inputs.getD k 0) : ℝ) : ℂ) * ((graph D).W ρ (D.verts \ D.outputs.toFinset) s *
        sumOver R.inner (fun r => (graph R).W ρ (R.verts \ R.inputs.toFinset) r * (R.inputs.map (jfac D R s r)).prod) βR) := by
    intro s
    rw [sumOver_mul, sumOver_comm, mul_left_comm]
    congr 1
    rw [← sumOver_mul]
    apply sumOver_congr
    intro r
    rw [sumOver_mul, hsum]
    ring
  rw [sumOver_congr step2, sumOver_mul]
  have := Phase.u_ne_zero ρ R.globalPhase
  field_simp

end Diagram

end MQT.ZX
