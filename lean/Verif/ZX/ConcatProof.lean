/-
Concatenation of diagrams: what the loops do.
-/
import Verif.ZX.Concat

set_option autoImplicit false

noncomputable section

open Classical

open Function (update)

namespace MQT.ZX

open Diagram

namespace Diagram

/-- The type of the edge between the neighbours of an output of `D` and an input of `R`. -/
def joinType (t t' : EType) : EType := if t = t' then .simple else .hadamard

/-- The output of `D` that belongs to the input `p` of `R`. -/
def partner (D R : Diagram) (p : ℕ) : ℕ := D.outputs.getD (R.inputs.idxOf p) 0

/-- The factor from the edge `e` of the vertex `i` of `R`. -/
def efac (D R : Diagram) (nw : ℕ → ℕ) (i : ℕ) (e : Edge) (x : ℕ → Bool) : ℂ :=
  if e.tgt ∈ R.inputs then
    ew (joinType (D.end1 (D.partner R e.tgt)).type e.type) ((graph D).ty (D.end1 (D.partner R e.tgt)).tgt) ((graph R).ty i)
      (x (D.end1 (D.partner R e.tgt)).tgt) (x (nw i))
  else if i < e.tgt then ew e.type ((graph R).ty i) ((graph R).ty e.tgt) (x (nw i)) (x (nw e.tgt))
  else 1

theorem ty_congr {D D' : Diagram} {v w : ℕ} (h : D.vert v = D'.vert w) : (graph D).ty v = (graph D').ty w := by
  unfold Graph.ty graph
  simp only
  rw [h]

section
variable {n : ℕ} {D R D1 D2 : Diagram} {nw : ℕ → ℕ} {L : List ℕ} {F : (ℕ → Bool) → ℂ}

theorem partner_eq (J : Joins n D R) {p : ℕ} (hp : p ∈ R.inputs) :
    R.inputs[R.inputs.idxOf p]? = some p ∧ D.outputs[R.inputs.idxOf p]? = some (D.partner R p) ∧ D.partner R p ∈ D.outputs := by
  have h1 : R.inputs.idxOf p < R.inputs.length := List.idxOf_lt_length_of_mem hp
  have h2 : R.inputs.idxOf p < D.outputs.length := by rw [J.outD, ← J.inR]; exact h1
  have e : D.partner R p = D.outputs[R.inputs.idxOf p] := by
    unfold partner
    rw [List.getD_eq_getElem?_getD, List.getElem?_eq_getElem h2]
    rfl
  refine ⟨?_, ?_, ?_⟩
  · rw [List.getElem?_eq_getElem h1, List.getElem_idxOf h1]
  · rw [List.getElem?_eq_getElem h2, e]
  · rw [e]; exact List.getElem_mem h2

theorem copyEdge_spec (J : Joins n D R) (C : Copied D.outputs.toFinset D R L D1 nw) (hL : ∀ i, R.Kept i → i ∈ L) {i : ℕ} (hi : i ∈ L)
    {e : Edge} (he : e ∈ R.adj i) (s : Edged D.outputs.toFinset D1 D2 F) :
    ∃ D3, copyEdge R nw i D2 e = some D3 ∧ Edged D.outputs.toFinset D2 D3 (efac D R nw i e) := by
  have alNew : ∀ j ∈ L, D2.Alive (nw j) := by
    intro j hj
    obtain ⟨⟨d, hd⟩, _⟩ := C.kept j hj
    rw [s.alive]
    exact ⟨d, by rw [(C.new j hj).2, hd]⟩
  have tyNew : ∀ j ∈ L, (graph D2).ty (nw j) = (graph R).ty j := by
    intro j hj
    rw [s.ty]
    exact ty_congr (C.new j hj).2
  have alOld : ∀ v, D.Alive v → D2.Alive v := by
    rintro v ⟨d, hd⟩
    rw [s.alive]
    exact ⟨d, by rw [(C.old v ⟨d, hd⟩).1, hd]⟩
  have tyOld : ∀ v, D.Alive v → (graph D2).ty v = (graph D).ty v := by
    intro v hv
    rw [s.ty]
    exact ty_congr (C.old v hv).1
  have nO : ∀ j ∈ L, nw j ∉ D.outputs.toFinset := by
    intro j hj hc
    exact (C.new j hj).1 (J.endsD.alive _ (List.mem_toFinset.1 hc))
  obtain ⟨ha, hne⟩ := J.invR.nb i (C.kept i hi).1 e he
  unfold copyEdge efac
  by_cases hin : e.tgt ∈ R.inputs
  · rw [if_pos hin]
    simp only [if_pos hin]
    obtain ⟨p1, p2, p3⟩ := partner_eq J hin
    obtain ⟨d, hd⟩ := ha
    have hq := J.qubit _ _ p1
    rw [hd] at hq
    simp only [Option.map_some, Option.some.injEq] at hq
    have hout : (if 0 ≤ d.qubit then D2.outputs[d.qubit.toNat]? else none) = some (D.partner R e.tgt) := by
      rw [hq, if_pos (Int.natCast_nonneg _), Int.toNat_natCast, s.outputs, C.outputs, p2]
    rw [hd]
    simp only
    rw [hout]
    simp only
    obtain ⟨o, ho⟩ : ∃ o, o = D.partner R e.tgt := ⟨_, rfl⟩
    rw [← ho] at p3 ⊢
    have hoa := J.endsD.alive o p3
    have hadj : D2.adj o = [D.end1 o] := by
      rw [s.adj o (List.mem_toFinset.2 p3), (C.old o hoa).2, J.endsD.one o p3]
    obtain ⟨ga, gne⟩ := J.invD.nb o hoa (D.end1 o) (by rw [J.endsD.one o p3]; exact List.mem_singleton.2 rfl)
    have hnwo : nw i ≠ o := fun hc => (C.new i hi).1 (hc ▸ hoa)
    rw [if_pos ⟨s.inv.lt (alOld o hoa), hnwo, by
      rw [hadj]; intro a ha; rw [List.mem_singleton.1 ha]; exact gne⟩, hadj]
    have hgn : (D.end1 o).tgt ≠ nw i := fun hc => (C.new i hi).1 (hc ▸ ga)
    obtain ⟨D3, e3, s3⟩ := addEdge_edged (O := D.outputs.toFinset) s.inv (alOld _ ga) (alNew i hi) hgn
      (fun hc => J.endsD.ne o p3 (List.mem_toFinset.1 hc)) (nO i hi) (joinType (D.end1 o).type e.type)
    refine ⟨D3, ?_, s3.congr fun x => ?_⟩
    · unfold redirect
      show ((D2.addEdge (D.end1 o).tgt (nw i) (joinType (D.end1 o).type e.type)).bind fun D' => redirect (nw i) e.type [] D') = _
      rw [e3]
      rfl
    · rw [tyOld _ ga, tyNew i hi]
  · rw [if_neg hin]
    simp only [if_neg hin]
    by_cases hlt : i < e.tgt
    · rw [if_pos hlt]
      simp only [if_pos hlt]
      have hL' := hL e.tgt ⟨ha, hin⟩
      have hnn : nw i ≠ nw e.tgt := fun hc => hne (C.inj i hi _ hL' hc).symm
      obtain ⟨D3, e3, s3⟩ := addEdge_edged (O := D.outputs.toFinset) s.inv (alNew i hi) (alNew _ hL') hnn (nO i hi) (nO _ hL') e.type
      refine ⟨D3, e3, s3.congr fun x => ?_⟩
      rw [tyNew i hi, tyNew _ hL']
    · rw [if_neg hlt]
      simp only [if_neg hlt]
      exact ⟨D2, rfl, Edged.refl s.inv⟩

theorem prod_filter_list {α : Type} (p : α → Prop) (f : α → ℂ) : ∀ l : List α,
    (l.map fun a => if p a then f a else 1).prod = ((l.filter fun a => p a).map f).prod
  | [] => rfl
  | a :: l => by
    rw [List.map_cons, List.prod_cons, prod_filter_list p f l]
    by_cases h : p a
    · rw [if_pos h, List.filter_cons_of_pos (by simpa using h), List.map_cons, List.prod_cons]
    · rw [if_neg h, List.filter_cons_of_neg (by simpa using h), one_mul]

/-- The list of the vertices that are copied. -/
def keptList (R : Diagram) : List ℕ := (List.range R.size).filter fun i => R.Kept i

theorem mem_keptList (h : R.Inv) {i : ℕ} : i ∈ R.keptList ↔ R.Kept i := by
  unfold keptList
  rw [List.mem_filter, List.mem_range]
  constructor
  · rintro ⟨_, h⟩; simpa using h
  · intro hk; exact ⟨h.lt hk.1, by simpa using hk⟩

/-- The factor from all edges. -/
def eprod (D R : Diagram) (nw : ℕ → ℕ) (x : ℕ → Bool) : ℂ :=
  (R.keptList.map fun i => ((R.adj i).map fun e => efac D R nw i e x).prod).prod

theorem copyAll_spec (J : Joins n D R) (C : Copied D.outputs.toFinset D R R.keptList D1 nw) :
    ∃ D2, (List.range R.size).foldlM (copyEdges R nw) D1 = some D2 ∧ Edged D.outputs.toFinset D1 D2 (eprod D R nw) := by
  have hL : ∀ i, R.Kept i → i ∈ R.keptList := fun i hi => (mem_keptList J.invR).2 hi
  obtain ⟨D2, e2, s2⟩ := edged_fold (O := D.outputs.toFinset) (f := copyEdges R nw) (D0 := D1)
    (E := fun i x => if R.Kept i then ((R.adj i).map fun e => efac D R nw i e x).prod else 1) (List.range R.size) D1 _
    (Edged.refl C.inv) (by
      intro i _ D' F s
      unfold copyEdges
      by_cases hk : R.Kept i
      · obtain ⟨d, hd⟩ := hk.1
        rw [hd]
        simp only
        rw [if_neg hk.2]
        obtain ⟨D3, e3, s3⟩ := edged_fold (O := D.outputs.toFinset) (f := copyEdge R nw i) (D0 := D')
          (E := fun e x => efac D R nw i e x) (R.adj i) D' _ (Edged.refl s.inv) (by
            intro e he D'' F' s'
            exact copyEdge_spec J C hL (hL i hk) he (s.trans s'))
        refine ⟨D3, e3, s3.congr fun x => ?_⟩
        rw [one_mul, if_pos hk]
      · refine ⟨D', ?_, (Edged.refl s.inv).congr fun x => by rw [if_neg hk]⟩
        cases hd : R.vert i with
        | none => rfl
        | some d =>
          simp only
          rw [if_pos]
          by_contra hc
          exact hk ⟨⟨d, hd⟩, hc⟩)
  refine ⟨D2, e2, s2.congr fun x => ?_⟩
  rw [one_mul, prod_filter_list R.Kept]
  rfl

/-! ### The outputs -/

theorem moveOutputs_spec (O : List ℕ) (hn : O.Nodup) (h : D2.Inv) (ho : D2.outputs = O) (hal : ∀ o ∈ O, D2.Alive o)
    (hty : ∀ o ∈ O, (graph D2).ty o = .boundary) (hlen : R.outputs.length = O.length) :
    ∀ m, m ≤ O.length → ∃ D3, (List.range m).foldlM (moveOutput R nw) D2 = some D3 ∧ D3.Inv ∧
      D3.verts = D2.verts \ (O.take m).toFinset ∧ D3.inner = D2.inner ∧ D3.globalPhase = D2.globalPhase ∧ D3.inputs = D2.inputs ∧
      D3.outputs = (R.outputs.take m).map nw ++ O.drop m ∧
      ∀ ρ x, (graph D3).W ρ (D2.verts \ O.toFinset) x = (graph D2).W ρ (D2.verts \ O.toFinset) x
  | 0, _ => ⟨D2, rfl, h, by simp, rfl, rfl, rfl, by simpa using ho, fun _ _ => rfl⟩
  | m + 1, hm => by
    obtain ⟨D3, e3, i3, v3, n3, g3, in3, o3, w3⟩ := moveOutputs_spec O hn h ho hal hty hlen m (by omega)
    have hmo : m < O.length := by omega
    have hmr : m < R.outputs.length := by omega
    have hl : ((R.outputs.take m).map nw).length = m := by
      rw [List.length_map, List.length_take]; omega
    have hget : D3.outputs[m]? = some O[m] := by
      rw [o3, List.getElem?_append_right (by omega), hl, Nat.sub_self, List.getElem?_drop, Nat.add_zero, List.getElem?_eq_getElem hmo]
    have hmem : O[m] ∈ O := List.getElem_mem hmo
    have hnt : O[m] ∉ O.take m := by
      have : (O.take m ++ [O[m]]).Nodup := by
        rw [List.take_append_getElem]
        exact hn.sublist (List.take_sublist _ _)
      rw [List.nodup_append] at this
      exact fun hc => this.2.2 _ hc _ (List.mem_singleton.2 rfl) rfl
    have ha3 : D3.Alive O[m] := by
      rw [← i3.mem_verts, v3, Finset.mem_sdiff, h.mem_verts, List.mem_toFinset]
      exact ⟨hal _ hmem, hnt⟩
    have hstep : moveOutput R nw D3 m = some { D3.without O[m] with outputs := D3.outputs.set m (nw R.outputs[m]) } := by
      unfold moveOutput
      rw [hget, List.getElem?_eq_getElem hmr]
      simp only
      rw [removeVertex_eq i3 ha3]
      rfl
    have iw := without_inv i3 ha3
    have ho3 : D3.outputs.set m (nw R.outputs[m]) = (R.outputs.take (m + 1)).map nw ++ O.drop (m + 1) := by
      rw [o3, List.set_append_right _ _ (by omega), hl, Nat.sub_self, List.drop_eq_getElem_cons hmo, List.set_cons_zero,
        ← List.take_append_getElem hmr, List.map_append, List.append_assoc]
      rfl
    rw [List.range_succ, List.foldlM_append, e3]
    show ∃ D4, ((moveOutput R nw D3 m).bind fun D' => some D') = some D4 ∧ _
    rw [hstep]
    have gr : graph { D3.without O[m] with outputs := D3.outputs.set m (nw R.outputs[m]) } = graph (D3.without O[m]) := rfl
    refine ⟨_, rfl, ⟨iw.out, iw.del, iw.nodup, iw.nv, iw.ne, iw.sym, iw.nb⟩, ?_, ?_, g3, in3, ho3, ?_⟩
    · show (D3.without O[m]).verts = _
      rw [without_verts, v3, ← List.take_append_getElem hmo]
      ext w
      simp only [Finset.mem_erase, Finset.mem_sdiff, List.mem_toFinset, List.mem_append, List.mem_singleton]
      tauto
    · show (D3.without O[m]).inner = _
      rw [without_inner i3 ha3, n3, Finset.erase_eq_of_notMem]
      rw [mem_inner h]
      exact fun hc => hc (hty _ hmem)
    · intro ρ x
      rw [gr, W_without ρ D3 O[m] (by
        rw [Finset.mem_sdiff, List.mem_toFinset]
        exact fun hc => hc.2 hmem)]
      exact w3 ρ x

end

end Diagram

end MQT.ZX
