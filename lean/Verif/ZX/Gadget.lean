/-
Fusing phase gadgets (`checkAndFuseGadget`, Rules.cpp 289-394).
-/
import Verif.ZX.GadgetProof

set_option autoImplicit false

noncomputable section

open Classical

open Function (update)

namespace MQT.ZX

open Diagram

namespace Diagram

/-! ### Model -/

/-- The loop over the neighbours of a candidate (Rules.cpp 347-369): whether it is a gadget, and `phaseSpider`. -/
def gadgetScan (D : Diagram) (id0 : ℕ) : List Edge → Option ℕ → Option (Bool × Option ℕ)
  | [], ps => some (true, ps)
  | e :: r, ps =>
    if e.type ≠ .hadamard ∨ ¬ D.Alive e.tgt then some (false, ps)
    else do
      let t ← D.type e.tgt
      if (D.adj e.tgt).length = 1 ∧ t ≠ .boundary then gadgetScan D id0 r (some e.tgt)
      else if findEdge (D.adj e.tgt) id0 = none then some (false, ps)
      else gadgetScan D id0 r ps

/-- The search for the other gadget (Rules.cpp 332-374): `id1` if found, and `phaseSpider`. -/
def gadgetSearch (D : Diagram) (id0 : ℕ) : List Edge → Option ℕ → Option (Option ℕ × Option ℕ)
  | [], ps => some (none, ps)
  | e :: r, ps =>
    if e.tgt = id0 then gadgetSearch D id0 r ps
    else if e.type ≠ .hadamard ∨ ¬ D.Alive e.tgt ∨ ¬ D.isPauli e.tgt ∨ (D.adj e.tgt).length ≠ (D.adj id0).length ∨
        findEdge (D.adj e.tgt) id0 ≠ none then gadgetSearch D id0 r ps
    else do
      let (found, ps') ← gadgetScan D id0 (D.adj e.tgt) ps
      if found then some (some e.tgt, ps') else gadgetSearch D id0 r ps'

/-- Rules.cpp 380-392. -/
def gadgetMerge (D : Diagram) (v id0 id1 ps : ℕ) : Option Diagram := do
  let p0 ← D.phase id0
  let D1 ← if ¬ p0.isZero then do
      let p ← D.phase v
      let D' ← D.setPhase v p.neg
      D'.setPhase id0 Phase.zero
    else some D
  let p1 ← D1.phase id1
  let q ← D1.phase ps
  let D2 ← D1.addPhase v (if p1.isZero then q else q.neg)
  let D3 ← D2.removeVertex ps
  D3.removeVertex id1

/-- Rules.cpp 289-394. -/
def checkAndFuseGadget (D : Diagram) (v : ℕ) : Option (Diagram × Bool) :=
  if v < D.size then
    match D.adj v with
    | [e] => do
      let t ← D.type v
      if t = .boundary then some (D, false)
      else do
        let id0 := e.tgt
        let p0 ← D.phase id0
        if ¬ p0.isPauli ∨ (D.adj id0).length < 2 ∨ e.type ≠ .hadamard then some (D, false)
        else
          match D.adj id0 with
          | [a, b] => do
            let f := if a.tgt = v then b else a
            if f.type ≠ .hadamard then some (D, false)
            else do
              let p ← D.phase v
              let D1 ← D.addPhase f.tgt (if p0.isZero then p else p.neg)
              let D2 ← D1.removeVertex v
              let D3 ← D2.removeVertex id0
              some (D3, true)
          | l =>
            let l' := l.filter fun e => e.tgt ≠ v
            if ∃ e ∈ l', e.type ≠ .hadamard then some (D, false)
            else
              match l'.getLast? with
              | none => none
              | some n0 => do
                let (id1, ps) ← gadgetSearch D id0 (D.adj n0.tgt) none
                match id1, ps with
                | some id1, some ps => do
                  let D' ← gadgetMerge D v id0 id1 ps
                  some (D', true)
                | _, _ => some (D, false)
    | _ => some (D, false)
  else none

/-! ### Specification -/

/-- The same linear map up to a non-zero factor, which may depend on the values of the variables. -/
def SameC (D D' : Diagram) : Prop :=
  D'.inputs = D.inputs ∧ D'.outputs = D.outputs ∧
  ∃ k : (ℕ → ℝ) → ℂ, (∀ ρ, k ρ ≠ 0) ∧ ∀ ρ b, val ρ D b = k ρ * val ρ D' b

/-- A spider with one edge. -/
def Leaf (D : Diagram) (a : ℕ) : Prop := (graph D).ty a ≠ .boundary ∧ (D.adj a).length = 1

/-- What gadget fusion needs beyond a graph-like diagram: a vertex has at most one leaf, and a vertex with a leaf and
one more edge has it to a spider. -/
structure Gadgets (D : Diagram) : Prop where
  noX : ∀ w, (graph D).ty w ≠ .x
  one : ∀ w, D.Alive w → ∀ e ∈ D.adj w, ∀ e' ∈ D.adj w, D.Leaf e.tgt → D.Leaf e'.tgt → e.tgt = e'.tgt
  inner : ∀ w, D.Alive w → (D.adj w).length = 2 → ∀ e ∈ D.adj w, ∀ e' ∈ D.adj w, D.Leaf e.tgt → (graph D).ty e'.tgt ≠ .boundary

/-! ### Lemmas -/

theorem Same.toC {D D' : Diagram} (h : D.Same D') : D.SameC D' := by
  obtain ⟨i, o, k, hk, hv⟩ := h
  exact ⟨i, o, fun _ => k, fun _ => (Complex.ofReal_ne_zero.2 hk.ne' : (k : ℂ) ≠ 0), hv⟩

theorem SameC.refl (D : Diagram) : D.SameC D := (Same.refl D).toC

/-- The weight of a gadget with leaf `l` and middle `id`. -/
def gad (D : Diagram) (c u : ℂ) (l id : ℕ) (x : ℕ → Bool) : ℂ :=
  if c * signs l x (D.adj id) = 1 then 1 else u

/-- A gadget with leaf `l` and middle `id` among the vertices `V`. -/
structure GadgetAt (D : Diagram) (V : Finset ℕ) (l id : ℕ) (dl di : VData) : Prop where
  sub : V ⊆ D.verts
  ne : l ≠ id
  hl : l ∈ V
  hid : id ∈ V
  vl : D.vert l = some dl
  vi : D.vert id = some di
  tl : dl.type = .z
  ti : di.type = .z
  al : D.adj l = [⟨id, .hadamard⟩]
  ai : ∀ e ∈ D.adj id, e.type = .hadamard ∧ (graph D).ty e.tgt = .z ∧ e.tgt ∈ V

/-- Summing out a gadget. -/
theorem gadget_sum {D : Diagram} (h : D.Inv) (ρ : ℕ → ℝ) {V : Finset ℕ} {l id : ℕ} {dl di : VData} (g : D.GadgetAt V l id dl di)
    {c : ℂ} (hc : di.phase.u ρ = c) (hc1 : c = 1 ∨ c = -1) (x : ℕ → Bool) :
    ((graph D).W ρ V (update (update x id false) l false) + (graph D).W ρ V (update (update x id false) l true)) +
    ((graph D).W ρ V (update (update x id true) l false) + (graph D).W ρ V (update (update x id true) l true)) =
      2 * D.gad c (dl.phase.u ρ) l id x * (graph D).W ρ ((V.erase l).erase id) x := by
  obtain ⟨hV, hne, hl, hid, vl, vi, tl, ti, al, ai⟩ := g
  have hal : D.Alive l := ⟨dl, vl⟩
  have hai : D.Alive id := ⟨di, vi⟩
  have hid' : id ∈ V.erase l := Finset.mem_erase.2 ⟨hne.symm, hid⟩
  have one : ∀ q p, (graph D).W ρ V (update (update x id q) l p) =
      (if p = true then dl.phase.u ρ else 1) * sg p q * ((if q = true then c else 1) *
        (if q = true then signs l x (D.adj id) else 1)) * (graph D).W ρ ((V.erase l).erase id) x := by
    intro q p
    rw [Graph.W_erase ρ (graph_symm h) _ hl, vf_inner ρ vl (by rw [tl]; simp), Function.update_self,
      prod_pf h ((Finset.erase_subset _ _).trans hV) _ hal, al]
    simp only [List.map_cons, List.map_nil, List.prod_cons, List.prod_nil, mul_one]
    rw [if_pos hid', ty_of_vert vl, ty_of_vert vi, tl, ti, ew_hzz, Function.update_self, Function.update_of_ne hne.symm,
      Function.update_self, Graph.W_erase ρ (graph_symm h) _ hid', vf_inner ρ vi (by rw [ti]; simp),
      prod_pf h ((Finset.erase_subset _ _).trans ((Finset.erase_subset _ _).trans hV)) _ hai, Function.update_of_ne hne.symm,
      Function.update_self, hc]
    have hp : ((D.adj id).map fun e => if e.tgt ∈ (V.erase l).erase id then
        ew e.type ((graph D).ty id) ((graph D).ty e.tgt) q (update (update x id q) l p e.tgt) else 1).prod =
        if q = true then signs l x (D.adj id) else 1 := by
      have : ((D.adj id).map fun e => if e.tgt ∈ (V.erase l).erase id then
          ew e.type ((graph D).ty id) ((graph D).ty e.tgt) q (update (update x id q) l p e.tgt) else 1) =
          (D.adj id).map fun e => if e.tgt ≠ l then sg q (x e.tgt) else 1 := by
        apply List.map_congr_left
        intro e he
        obtain ⟨k1, k2, k3⟩ := ai e he
        obtain ⟨_, k4⟩ := h.nb id hai e he
        by_cases hx : e.tgt = l
        · rw [if_neg, if_neg (not_not.2 hx)]
          rw [hx]
          intro hm
          exact Finset.notMem_erase l _ (Finset.mem_of_mem_erase hm)
        · rw [if_pos (Finset.mem_erase.2 ⟨k4, Finset.mem_erase.2 ⟨hx, k3⟩⟩), if_pos hx, k1, k2, ty_of_vert vi, ti, ew_hzz,
            Function.update_of_ne hx, Function.update_of_ne k4]
      rw [this]
      cases q
      · rw [if_neg (by simp)]
        have : ∀ e : Edge, (if e.tgt ≠ l then sg false (x e.tgt) else (1 : ℂ)) = 1 := fun e => by simp [sg]
        simp only [this]
        simp
      · rfl
    rw [hp]
    have hW : (graph D).W ρ ((V.erase l).erase id) (update (update x id q) l p) = (graph D).W ρ ((V.erase l).erase id) x := by
      apply Graph.W_congr
      · intro _ _; rfl
      · intro _ _ _ _ _; rfl
      · intro w hw
        obtain ⟨k1, k2⟩ := Finset.mem_erase.1 hw
        rw [Function.update_of_ne (Finset.mem_erase.1 k2).1, Function.update_of_ne k1]
    rw [hW]
    ring
  rw [one, one, one, one]
  unfold gad
  rcases signs_sq l x (D.adj id) with hS | hS <;> rw [hS] <;> rcases hc1 with rfl | rfl <;>
    simp [sg] <;> norm_num <;> ring

theorem sumOver_gadget {D : Diagram} (h : D.Inv) (ρ : ℕ → ℝ) {V L : Finset ℕ} {l id : ℕ} {dl di : VData} (g : D.GadgetAt V l id dl di)
    {c : ℂ} (hc : di.phase.u ρ = c) (hc1 : c = 1 ∨ c = -1) (hl : l ∈ L) (hid : id ∈ L) (f : (ℕ → Bool) → ℂ)
    (hf : ∀ x p q, f (update (update x id q) l p) = f x) (b : ℕ → Bool) :
    sumOver L (fun x => f x * (graph D).W ρ V x) b =
      sumOver ((L.erase l).erase id) (fun x => 2 * f x * D.gad c (dl.phase.u ρ) l id x * (graph D).W ρ ((V.erase l).erase id) x) b := by
  have hL : L = insert l (L.erase l) := (Finset.insert_erase hl).symm
  have hL' : L.erase l = insert id ((L.erase l).erase id) :=
    (Finset.insert_erase (Finset.mem_erase.2 ⟨g.ne.symm, hid⟩)).symm
  conv_lhs => rw [hL]
  rw [sumOver_insert (Finset.notMem_erase l _)]
  conv_lhs => rw [hL']
  rw [sumOver_insert (Finset.notMem_erase id _)]
  apply sumOver_congr
  intro x
  rw [hf, hf, hf, hf]
  linear_combination f x * gadget_sum h ρ g hc hc1 x

/-- Edges are in both lists. -/
theorem edge_symm {D : Diagram} (h : D.Inv) {u : ℕ} (hu : D.Alive u) {e : Edge} (he : e ∈ D.adj u) : ⟨u, e.type⟩ ∈ D.adj e.tgt := by
  have := h.sym u e.tgt e.type hu (h.nb u hu e he).1
  unfold mult at this
  have h1 : 0 < (D.adj u).count ⟨e.tgt, e.type⟩ := List.count_pos_iff.2 he
  exact List.count_pos_iff.1 (by omega)

theorem signs_eq (w : ℕ) (x : ℕ → Bool) (l : List Edge) :
    signs w x l = (((l.map Edge.tgt).filter fun t => t ≠ w).map fun t => sg true (x t)).prod := by
  unfold signs
  induction l with
  | nil => rfl
  | cons e r ih =>
    rw [List.map_cons, List.prod_cons, ih, List.map_cons, List.filter_cons]
    by_cases hw : e.tgt = w <;> simp [hw]

theorem signs_perm {w w' : ℕ} (x : ℕ → Bool) {l l' : List Edge}
    (h : ((l.map Edge.tgt).filter fun t => t ≠ w).Perm ((l'.map Edge.tgt).filter fun t => t ≠ w')) : signs w x l = signs w' x l' := by
  rw [signs_eq, signs_eq]
  exact (h.map _).prod_eq

theorem signs_update {w : ℕ} (x : ℕ → Bool) {l : List Edge} {a : ℕ} (ha : ∀ e ∈ l, e.tgt ≠ w → e.tgt ≠ a) (p : Bool) :
    signs w (update x a p) l = signs w x l := by
  unfold signs
  congr 1
  apply List.map_congr_left
  intro e he
  by_cases hw : e.tgt = w
  · simp [hw]
  · rw [if_pos hw, if_pos hw, Function.update_of_ne (ha e he hw)]

/-- Different phases at the same vertices. -/
theorem rephased {D : Diagram} (h : D.Good) {f : ℕ → Option VData} (hf : ∀ w, (f w).map VData.type = (D.vert w).map VData.type)
    (hr : ∀ w d, f w = some d → d.phase.const.InRange) :
    ({ D with vert := f } : Diagram).Good ∧ (∀ w, ({ D with vert := f } : Diagram).Alive w ↔ D.Alive w) ∧
      (∀ w, (graph ({ D with vert := f } : Diagram)).ty w = (graph D).ty w) ∧ (graph ({ D with vert := f } : Diagram)).m = (graph D).m := by
  set D' : Diagram := { D with vert := f } with hD'
  have al : ∀ w, D'.Alive w ↔ D.Alive w := by
    intro w
    unfold Alive
    have := hf w
    show (∃ d, f w = some d) ↔ _
    cases h1 : f w <;> cases h2 : D.vert w <;> rw [h1, h2] at this <;> simp at this ⊢
  have hve : D'.verts = D.verts := by
    unfold verts
    simp only [al]
    rfl
  have hm : (graph D').m = (graph D).m := by
    funext a b t
    unfold graph
    simp only [al]
    rfl
  have hty : ∀ w, (graph D').ty w = (graph D).ty w := by
    intro w
    unfold Graph.ty graph
    simp only
    rw [hD']
    simp only
    rw [hf]
  have inv : D'.Inv := by
    have h := h.inv
    refine ⟨?_, ?_, h.nodup, by rw [hve]; exact h.nv, by rw [hve]; exact h.ne, ?_, ?_⟩
    · intro u hu
      have h1 := h.out u hu
      have h2 := hf u
      rw [h1] at h2
      show f u = none
      cases h3 : f u with
      | none => rfl
      | some d => rw [h3] at h2; simp at h2
    · intro u
      have : D'.vert u = none ↔ D.vert u = none := by
        have := hf u
        show f u = none ↔ _
        cases h1 : f u <;> cases h2 : D.vert u <;> rw [h1, h2] at this <;> simp at this ⊢
      rw [this]
      exact h.del u
    · intro u w t hu hw
      exact h.sym u w t ((al u).1 hu) ((al w).1 hw)
    · intro u hu e he
      obtain ⟨k1, k2⟩ := h.nb u ((al u).1 hu) e he
      exact ⟨(al _).2 k1, k2⟩
  refine ⟨⟨inv, ?_, ?_, hr⟩, al, hty, hm⟩
  · intro u w
    unfold Graph.total
    rw [hm]
    exact h.simple u w
  · intro b u w
    unfold Graph.total
    rw [hm, hty]
    exact h.bd b u w

theorem without_good {D : Diagram} (h : D.Good) {v : ℕ} (hv : D.Alive v) : (D.without v).Good :=
  ⟨without_inv h.inv hv, without_simple h.simple v, without_bd h.bd v, without_range h.range v⟩

/-- A boundary vertex has at most one edge. -/
theorem boundary_length {D : Diagram} (h : D.Good) {v : ℕ} (hv : D.Alive v) (hb : (graph D).ty v = .boundary) :
    (D.adj v).length ≤ 1 := by
  match hl : D.adj v with
  | [] => simp
  | [_] => simp
  | a :: b :: r =>
    exfalso
    have h1 := total_of_mem h.inv hv (e := a) (by rw [hl]; simp)
    have h2 := total_of_mem h.inv hv (e := b) (by rw [hl]; simp)
    have h3 := h.bd v _ _ hb h1 h2
    have := h.simple.nodup h.inv hv
    rw [hl] at this
    simp only [List.map_cons, List.nodup_cons, List.mem_cons, not_or] at this
    exact this.1.1 h3

theorem inner_of_vert {D : Diagram} (h : D.Inv) {v : ℕ} {d : VData} (hd : D.vert v = some d) (hz : d.type = .z) : v ∈ D.inner :=
  (mem_inner h).2 (by rw [ty_of_vert hd, hz]; simp)

theorem without2_verts (D : Diagram) (a b : ℕ) : ((D.without a).without b).verts = (D.verts.erase a).erase b := by
  rw [without_verts, without_verts]

theorem without2_inner {D : Diagram} (h : D.Inv) {a b : ℕ} (ha : D.Alive a) (hb : D.Alive b) (hne : a ≠ b) :
    ((D.without a).without b).inner = (D.inner.erase a).erase b := by
  rw [without_inner (without_inv h ha) ((without_alive _ _ _).2 ⟨hb, hne.symm⟩), without_inner h ha]

theorem without2_good {D : Diagram} (h : D.Good) {a b : ℕ} (ha : D.Alive a) (hb : D.Alive b) (hne : a ≠ b) :
    ((D.without a).without b).Good :=
  without_good (without_good h ha) ((without_alive _ _ _).2 ⟨hb, hne.symm⟩)

theorem W_without2 (ρ : ℕ → ℝ) (D : Diagram) (a b : ℕ) (V : Finset ℕ) (x : ℕ → Bool) :
    (graph ((D.without a).without b)).W ρ ((V.erase a).erase b) x = (graph D).W ρ ((V.erase a).erase b) x := by
  rw [W_without ρ _ b (Finset.notMem_erase b _), W_without ρ _ a]
  intro hm
  exact Finset.notMem_erase a _ (Finset.mem_of_mem_erase hm)

/-- A gadget with one leg. -/
theorem absorb_sound {D : Diagram} (h : D.Good) {v id0 : ℕ} {dv d0 : VData} (g : D.GadgetAt D.verts v id0 dv d0)
    (hp : d0.phase.isPauli) {f : Edge} (hadj : ∀ x, signs v x (D.adj id0) = sg true (x f.tgt)) (hf : f ∈ D.adj id0) (hfv : f.tgt ≠ v) :
    ∃ D1, D.addPhase f.tgt (if d0.phase.isZero then dv.phase else dv.phase.neg) = some D1 ∧
      D1.removeVertex v = some (D1.without v) ∧ (D1.without v).removeVertex id0 = some ((D1.without v).without id0) ∧
      ((D1.without v).without id0).Good ∧ D.SameC ((D1.without v).without id0) := by
  have av : D.Alive v := ⟨dv, g.vl⟩
  have a0 : D.Alive id0 := ⟨d0, g.vi⟩
  obtain ⟨fH, fz, _⟩ := g.ai f hf
  obtain ⟨fa, fne⟩ := h.inv.nb id0 a0 f hf
  set p : Phase := if d0.phase.isZero then dv.phase else dv.phase.neg with hpd
  have rv := h.range v dv g.vl
  have r0 := h.range id0 d0 g.vi
  have rp : p.const.InRange := by rw [hpd]; split_ifs; exacts [rv, Phase.neg_inRange rv]
  obtain ⟨D1, h1, s1⟩ := addPhase_step h.inv ((D.verts.erase v).erase id0) (v := f.tgt) (by rw [fz]; simp) rp (fun _ _ => False)
  have good1 : D1.Good := by
    refine ⟨s1.inv, s1.simple h.simple, ?_, s1.range h.range⟩
    intro b u w hb hu hw
    rw [s1.ty] at hb
    rw [s1.total (fun hP => hP)] at hu hw
    exact h.bd b u w hb hu hw
  have av1 := (s1.alive v).2 av
  have a01 := (s1.alive id0).2 a0
  refine ⟨D1, h1, removeVertex_eq s1.inv av1, removeVertex_eq (without_inv s1.inv av1) ((without_alive _ _ _).2 ⟨a01, g.ne.symm⟩),
    without2_good good1 av1 a01 g.ne, s1.inputs, s1.outputs, fun ρ => 2 * if d0.phase.isZero then 1 else dv.phase.u ρ, ?_, ?_⟩
  · intro ρ
    refine mul_ne_zero two_ne_zero ?_
    split_ifs
    · exact one_ne_zero
    · exact Phase.u_ne_zero ρ _
  · intro ρ b
    have hfV : f.tgt ∈ (D.verts.erase v).erase id0 :=
      Finset.mem_erase.2 ⟨fne, Finset.mem_erase.2 ⟨hfv, h.inv.mem_verts.2 fa⟩⟩
    have hc : d0.phase.u ρ = if d0.phase.isZero then 1 else -1 := by
      rcases Phase.pauli_cases hp r0 with ⟨k1, k2⟩ | ⟨k1, k2⟩
      · rw [if_pos k1, k2]
      · rw [if_neg k1, k2]
    have hc1 : (if d0.phase.isZero then (1 : ℂ) else -1) = 1 ∨ (if d0.phase.isZero then (1 : ℂ) else -1) = -1 := by
      split_ifs <;> simp
    have key := sumOver_gadget h.inv ρ g hc hc1 (inner_of_vert h.inv g.vl g.tl) (inner_of_vert h.inv g.vi g.ti) (fun _ => 1)
      (fun _ _ _ => rfl) b
    simp only [one_mul, mul_one] at key
    unfold val
    rw [key, without2_verts, without2_inner s1.inv av1 a01 g.ne, s1.inner, s1.verts]
    show _ = _ * (D1.globalPhase.u ρ * _)
    rw [s1.gp, mul_left_comm]
    congr 1
    rw [← sumOver_mul]
    apply sumOver_congr
    intro x
    beta_reduce
    rw [W_without2, s1.W, if_pos hfV]
    unfold gad
    rw [hadj, hpd]
    have hu := Phase.u_ne_zero ρ dv.phase
    have h11 : ¬ ((-1 : ℂ) = 1) := by norm_num
    by_cases hz : d0.phase.isZero
    · simp only [if_pos hz]
      cases x f.tgt <;> simp [sg, h11]
      ring
    · simp only [if_neg hz]
      rw [Phase.u_neg]
      cases x f.tgt <;> simp [sg, h11]
      field_simp

/-- Two gadgets with the same legs. -/
theorem merge_sound {D : Diagram} (h : D.Good) {v id0 id1 ps : ℕ} {dv d0 d1 dp : VData}
    (g0 : D.GadgetAt ((D.verts.erase ps).erase id1) v id0 dv d0) (g1 : D.GadgetAt D.verts ps id1 dp d1) (hp0 : d0.phase.isPauli)
    (hp1 : d1.phase.isPauli) (hs : ∀ x, signs v x (D.adj id0) = signs ps x (D.adj id1))
    (n1 : ∀ e ∈ D.adj id1, e.tgt ≠ v ∧ e.tgt ≠ id0) :
    ∃ D', D.gadgetMerge v id0 id1 ps = some D' ∧ D'.Good ∧ D.SameC D' := by
  have inV : ∀ {w}, w ∈ (D.verts.erase ps).erase id1 → w ≠ id1 ∧ w ≠ ps ∧ D.Alive w := fun hw =>
    ⟨(Finset.mem_erase.1 hw).1, (Finset.mem_erase.1 (Finset.mem_erase.1 hw).2).1,
      h.inv.mem_verts.1 (Finset.mem_erase.1 (Finset.mem_erase.1 hw).2).2⟩
  obtain ⟨v1, vp, av⟩ := inV g0.hl
  obtain ⟨i1, ip, a0⟩ := inV g0.hid
  have ap : D.Alive ps := ⟨dp, g1.vl⟩
  have a1 : D.Alive id1 := ⟨d1, g1.vi⟩
  have rv := h.range v dv g0.vl
  have r0 := h.range id0 d0 g0.vi
  have r1 := h.range id1 d1 g1.vi
  have rp := h.range ps dp g1.vl
  set q : Phase := if d1.phase.isZero then dp.phase else dp.phase.neg with hq
  have rq : q.const.InRange := by rw [hq]; split_ifs; exacts [rp, Phase.neg_inRange rp]
  set pv : Phase := (if d0.phase.isZero then dv.phase else dv.phase.neg).add q with hpv
  have rpv : pv.const.InRange := by rw [hpv]; refine Phase.add_inRange ?_ rq; split_ifs; exacts [rv, Phase.neg_inRange rv]
  set p0 : Phase := if d0.phase.isZero then d0.phase else Phase.zero with hp0'
  have rp0 : p0.const.InRange := by rw [hp0']; split_ifs; exacts [r0, Phase.zero_inRange]
  have up0 : ∀ ρ, p0.u ρ = 1 := by
    intro ρ; rw [hp0']; split_ifs with hz; exacts [Phase.u_of_isZero ρ hz, Phase.u_zero ρ]
  set f : ℕ → Option VData := update (update D.vert id0 (some { d0 with phase := p0 })) v (some { dv with phase := pv }) with hf
  have fv : f v = some { dv with phase := pv } := by rw [hf, Function.update_self]
  have f0 : f id0 = some { d0 with phase := p0 } := by rw [hf, Function.update_of_ne g0.ne.symm, Function.update_self]
  have fo : ∀ w, w ≠ v → w ≠ id0 → f w = D.vert w := by
    intro w w1 w2; rw [hf, Function.update_of_ne w1, Function.update_of_ne w2]
  set D₁ : Diagram := { D with vert := f } with hD₁
  obtain ⟨good1, al1, ty1, m1⟩ := rephased h (f := f)
    (by
      intro w
      by_cases w1 : w = v
      · rw [w1, fv, g0.vl]; rfl
      · by_cases w2 : w = id0
        · rw [w2, f0, g0.vi]; rfl
        · rw [fo w w1 w2])
    (by
      intro w d hd
      by_cases w1 : w = v
      · rw [w1, fv] at hd; cases hd; exact rpv
      · by_cases w2 : w = id0
        · rw [w2, f0] at hd; cases hd; exact rp0
        · rw [fo w w1 w2] at hd; exact h.range w d hd)
  rw [← hD₁] at good1 al1 ty1 m1
  have hm : D.gadgetMerge v id0 id1 ps = some ((D₁.without ps).without id1) := by
    have ph0 := phase_of_vert h.inv g0.vi
    have phv := phase_of_vert h.inv g0.vl
    have ph1 := phase_of_vert h.inv g1.vi
    have php := phase_of_vert h.inv g1.vl
    have hsz0 := h.inv.lt a0
    have hszv := h.inv.lt av
    have hsz1 := h.inv.lt a1
    have hszp := h.inv.lt ap
    have rem : ∀ D2, D2 = D₁ → (do
        let D3 ← D2.removeVertex ps
        D3.removeVertex id1) = some ((D₁.without ps).without id1) := by
      rintro _ rfl
      rw [removeVertex_eq good1.inv ((al1 _).2 ap)]
      simp only [Option.bind_eq_bind, Option.bind_some]
      exact removeVertex_eq (without_inv good1.inv ((al1 _).2 ap)) ((without_alive _ _ _).2 ⟨(al1 _).2 a1, g1.ne.symm⟩)
    unfold gadgetMerge
    rw [ph0]
    simp only [Option.bind_eq_bind, Option.bind_some]
    by_cases hz : d0.phase.isZero
    · rw [if_neg (not_not.2 hz)]
      show ((D.phase id1).bind fun p1 => _) = _
      rw [ph1, php]
      simp only [Option.bind_some]
      rw [(addPhase_eq h.inv av _).1]
      refine rem _ ?_
      rw [hD₁]
      unfold phased
      congr 1
      rw [hf, g0.vl, hp0', if_pos hz, hpv, if_pos hz]
      have : ({ d0 with phase := d0.phase } : VData) = d0 := rfl
      rw [this, ← g0.vi, Function.update_eq_self]
      rfl
    · rw [if_pos hz, phv]
      simp only [Option.bind_some]
      unfold setPhase
      simp only [hszv, if_true, g0.vl, Option.bind_some, hsz0, Function.update_of_ne g0.ne.symm, g0.vi]
      set E : Diagram := { D with vert := update (update D.vert v (some { dv with phase := dv.phase.neg })) id0 (some { d0 with phase := Phase.zero }) } with hE
      have Ev : E.vert v = some { dv with phase := dv.phase.neg } := by
        rw [hE]; simp only; rw [Function.update_of_ne g0.ne, Function.update_self]
      have e1 : E.phase id1 = some d1.phase := by
        unfold phase
        have : E.vert id1 = some d1 := by
          rw [hE]; simp only; rw [Function.update_of_ne i1.symm, Function.update_of_ne v1.symm]; exact g1.vi
        rw [if_pos hsz1, this]; rfl
      have e2 : E.phase ps = some dp.phase := by
        unfold phase
        have : E.vert ps = some dp := by
          rw [hE]; simp only; rw [Function.update_of_ne ip.symm, Function.update_of_ne vp.symm]; exact g1.vl
        rw [if_pos hszp, this]; rfl
      rw [e1, e2]
      simp only [Option.bind_some]
      have e3 : E.addPhase v q = some D₁ := by
        unfold addPhase
        rw [if_pos hszv, Ev]
        simp only [Option.some.injEq]
        rw [hD₁, hE]
        congr 1
        rw [hf, hp0', if_neg hz, hpv, if_neg hz]
        simp only
        rw [Function.update_comm g0.ne, Function.update_idem]
      rw [e3]
      exact rem _ rfl
  refine ⟨_, hm, without2_good good1 ((al1 _).2 ap) ((al1 _).2 a1) g1.ne, rfl, rfl,
    fun ρ => 2 * (if d0.phase.isZero then 1 else dv.phase.u ρ) * (if d1.phase.isZero then 1 else dp.phase.u ρ), ?_, ?_⟩
  · intro ρ
    refine mul_ne_zero (mul_ne_zero two_ne_zero ?_) ?_ <;> split_ifs
    exacts [one_ne_zero, Phase.u_ne_zero ρ _, one_ne_zero, Phase.u_ne_zero ρ _]
  · intro ρ b
    have pc : ∀ {d : VData}, d.phase.isPauli → d.phase.const.InRange → d.phase.u ρ = if d.phase.isZero then 1 else -1 := by
      intro d hp r
      rcases Phase.pauli_cases hp r with ⟨k1, k2⟩ | ⟨k1, k2⟩
      · rw [if_pos k1, k2]
      · rw [if_neg k1, k2]
    have pm : ∀ d : VData, (if d.phase.isZero then (1 : ℂ) else -1) = 1 ∨ (if d.phase.isZero then (1 : ℂ) else -1) = -1 := by
      intro d; split_ifs <;> simp
    have in1 := inner_of_vert h.inv g1.vi g1.ti
    have inp := inner_of_vert h.inv g1.vl g1.tl
    have inv' : v ∈ (D.inner.erase ps).erase id1 := Finset.mem_erase.2 ⟨v1, Finset.mem_erase.2 ⟨vp, inner_of_vert h.inv g0.vl g0.tl⟩⟩
    have in0' : id0 ∈ (D.inner.erase ps).erase id1 := Finset.mem_erase.2 ⟨i1, Finset.mem_erase.2 ⟨ip, inner_of_vert h.inv g0.vi g0.ti⟩⟩
    have k1 := sumOver_gadget h.inv ρ g1 (pc hp1 r1) (pm d1) inp in1 (fun _ => 1) (fun _ _ _ => rfl) b
    have k2 := sumOver_gadget h.inv ρ g0 (pc hp0 r0) (pm d0) inv' in0'
      (fun x => 2 * D.gad (if d1.phase.isZero then 1 else -1) (dp.phase.u ρ) ps id1 x)
      (by
        intro x p q
        unfold gad
        rw [signs_update _ (fun e he _ => (n1 e he).1), signs_update _ (fun e he _ => (n1 e he).2)]) b
    simp only [one_mul, mul_one] at k1
    beta_reduce at k2
    -- the new diagram
    set D' := (D₁.without ps).without id1 with hD'
    have good' : D'.Good := without2_good good1 ((al1 _).2 ap) ((al1 _).2 a1) g1.ne
    have verts1 : D₁.verts = D.verts := by
      ext w; rw [good1.inv.mem_verts, h.inv.mem_verts, al1]
    have inner1 : D₁.inner = D.inner := by
      ext w; rw [mem_inner good1.inv, mem_inner h.inv, ty1]
    have hverts : D'.verts = (D.verts.erase ps).erase id1 := by rw [hD', without2_verts, verts1]
    have hinner : D'.inner = (D.inner.erase ps).erase id1 := by
      rw [hD', without2_inner good1.inv ((al1 _).2 ap) ((al1 _).2 a1) g1.ne, inner1]
    have hadj : ∀ w, w ∈ (D.verts.erase ps).erase id1 → (∀ e ∈ D.adj w, e.tgt ≠ ps ∧ e.tgt ≠ id1) → D'.adj w = D.adj w := by
      intro w hw he
      obtain ⟨w1, w2, w3⟩ := inV hw
      have w4 : D₁.Alive w := (al1 w).2 w3
      have hst : (D₁.without ps).adj w = D.adj w := by
        unfold without
        simp only
        rw [if_pos ⟨w4, w2⟩]
        exact List.filter_eq_self.2 fun e h => by simpa using (he e h).1
      rw [hD']
      have : ((D₁.without ps).without id1).adj w = ((D₁.without ps).adj w).filter fun e => e.tgt ≠ id1 :=
        if_pos ⟨(without_alive _ _ _).2 ⟨w4, w2⟩, w1⟩
      rw [this, hst]
      exact List.filter_eq_self.2 fun e h => by simpa using (he e h).2
    have hvert : ∀ w, w ≠ ps → w ≠ id1 → D'.vert w = f w := by
      intro w w1 w2
      show update (update f ps none) id1 none w = f w
      rw [Function.update_of_ne w2, Function.update_of_ne w1]
    have hty' : ∀ w, w ≠ ps → w ≠ id1 → (graph D').ty w = (graph D).ty w := by
      intro w w1 w2
      rw [hD', without_ty, if_neg w2, without_ty, if_neg w1, ty1]
    have adjv : D'.adj v = D.adj v := hadj v g0.hl (by
      rw [g0.al]; intro e he; rw [List.mem_singleton] at he; subst he; exact ⟨ip, i1⟩)
    have adj0 : D'.adj id0 = D.adj id0 := hadj id0 g0.hid (fun e he => by
      obtain ⟨k1, k2, _⟩ := inV (g0.ai e he).2.2
      exact ⟨k2, k1⟩)
    have g' : D'.GadgetAt D'.verts v id0 { dv with phase := pv } { d0 with phase := p0 } := by
      refine ⟨subset_rfl, g0.ne, by rw [hverts]; exact g0.hl, by rw [hverts]; exact g0.hid, by rw [hvert v vp v1, fv],
        by rw [hvert id0 ip i1, f0], g0.tl, g0.ti, by rw [adjv]; exact g0.al, ?_⟩
      intro e he
      rw [adj0] at he
      obtain ⟨k1, k2, k3⟩ := g0.ai e he
      obtain ⟨j1, j2, _⟩ := inV k3
      exact ⟨k1, by rw [hty' _ j2 j1]; exact k2, by rw [hverts]; exact k3⟩
    have k3 := sumOver_gadget good'.inv ρ g' (up0 ρ) (.inl rfl) (inner_of_vert good'.inv g'.vl g'.tl)
      (inner_of_vert good'.inv g'.vi g'.ti) (fun _ => 1) (fun _ _ _ => rfl) b
    simp only [one_mul, mul_one] at k3
    unfold val
    rw [k1, k2, k3, hinner, hverts]
    show _ = _ * (D.globalPhase.u ρ * _)
    rw [mul_left_comm]
    congr 1
    rw [← sumOver_mul]
    apply sumOver_congr
    intro x
    beta_reduce
    have hW : (graph D').W ρ ((((D.verts.erase ps).erase id1).erase v).erase id0) x =
        (graph D).W ρ ((((D.verts.erase ps).erase id1).erase v).erase id0) x := by
      apply Graph.W_congr
      · intro w hw
        obtain ⟨w1, hw⟩ := Finset.mem_erase.1 hw
        obtain ⟨w2, hw⟩ := Finset.mem_erase.1 hw
        obtain ⟨w3, w4, _⟩ := inV hw
        show D'.vert w = D.vert w
        rw [hvert w w4 w3, fo w w2 w1]
      · intro a ha b hb t
        obtain ⟨b1, b2, _⟩ := inV (Finset.mem_of_mem_erase (Finset.mem_of_mem_erase hb))
        obtain ⟨c1, c2, _⟩ := inV (Finset.mem_of_mem_erase (Finset.mem_of_mem_erase ha))
        rw [hD', graph_without]
        simp only
        rw [if_neg (by tauto), graph_without]
        simp only
        rw [if_neg (by tauto), m1]
      · intro _ _; rfl
    rw [hW]
    unfold gad
    rw [adj0, hs x, hpv, Phase.u_add, hq]
    have hu := Phase.u_ne_zero ρ dv.phase
    have hu' := Phase.u_ne_zero ρ dp.phase
    have h11 : ¬ ((-1 : ℂ) = 1) := by norm_num
    rcases signs_sq ps x (D.adj id1) with hS | hS <;> rw [hS] <;> by_cases z0 : d0.phase.isZero <;>
      by_cases z1 : d1.phase.isZero <;> simp [z0, z1, h11, Phase.u_neg] <;> try field_simp

theorem findEdge_ne_none {l : List Edge} {v : ℕ} : findEdge l v ≠ none ↔ ∃ e ∈ l, e.tgt = v := by
  unfold findEdge
  rw [Option.ne_none_iff_exists']
  constructor
  · rintro ⟨e, he⟩
    exact ⟨e, List.mem_of_find?_eq_some he, by simpa using List.find?_some he⟩
  · rintro ⟨e, he, hv⟩
    cases hf : l.find? fun e => e.tgt = v with
    | some e => exact ⟨e, rfl⟩
    | none => exact absurd hv (by simpa using List.find?_eq_none.1 hf e he)

theorem gadgetScan_spec {D : Diagram} (h : D.Inv) (id0 : ℕ) : ∀ (l : List Edge) (ps : Option ℕ),
    ∃ r, gadgetScan D id0 l ps = some r ∧ (r.1 = true →
      (∀ e ∈ l, e.type = .hadamard ∧ (D.Leaf e.tgt ∨ ∃ e' ∈ D.adj e.tgt, e'.tgt = id0)) ∧
      ((r.2 = ps ∧ ∀ e ∈ l, ¬ D.Leaf e.tgt) ∨ ∃ e ∈ l, D.Leaf e.tgt ∧ r.2 = some e.tgt))
  | [], ps => ⟨(true, ps), rfl, fun _ => ⟨by simp, .inl ⟨rfl, by simp⟩⟩⟩
  | e :: l, ps => by
    unfold gadgetScan
    by_cases h1 : e.type ≠ .hadamard ∨ ¬ D.Alive e.tgt
    · rw [if_pos h1]
      exact ⟨_, rfl, fun hx => by simp at hx⟩
    · rw [if_neg h1]
      push Not at h1
      obtain ⟨h1, d, hd⟩ := h1
      rw [(type_of_alive h hd).1]
      simp only [Option.bind_eq_bind, Option.bind_some]
      have hty := ty_of_vert hd
      by_cases h2 : (D.adj e.tgt).length = 1 ∧ d.type ≠ .boundary
      · rw [if_pos h2]
        have hl : D.Leaf e.tgt := ⟨by rw [hty]; exact h2.2, h2.1⟩
        obtain ⟨r, k1, k2⟩ := gadgetScan_spec h id0 l (some e.tgt)
        refine ⟨r, k1, fun hr => ?_⟩
        obtain ⟨k3, k4⟩ := k2 hr
        refine ⟨fun e' he' => ?_, .inr ?_⟩
        · rcases List.mem_cons.1 he' with rfl | he'
          · exact ⟨h1, .inl hl⟩
          · exact k3 e' he'
        · rcases k4 with ⟨k4, _⟩ | ⟨e', he', k4⟩
          · exact ⟨e, List.mem_cons_self, hl, k4⟩
          · exact ⟨e', List.mem_cons_of_mem _ he', k4⟩
      · rw [if_neg h2]
        by_cases h3 : findEdge (D.adj e.tgt) id0 = none
        · rw [if_pos h3]
          exact ⟨_, rfl, fun hx => by simp at hx⟩
        · rw [if_neg h3]
          have hl : ¬ D.Leaf e.tgt := fun hl => h2 ⟨hl.2, by rw [← hty]; exact hl.1⟩
          obtain ⟨r, k1, k2⟩ := gadgetScan_spec h id0 l ps
          refine ⟨r, k1, fun hr => ?_⟩
          obtain ⟨k3, k4⟩ := k2 hr
          refine ⟨fun e' he' => ?_, ?_⟩
          · rcases List.mem_cons.1 he' with rfl | he'
            · exact ⟨h1, .inr (findEdge_ne_none.1 h3)⟩
            · exact k3 e' he'
          · rcases k4 with ⟨k4, k5⟩ | ⟨e', he', k4⟩
            · refine .inl ⟨k4, fun e' he' => ?_⟩
              rcases List.mem_cons.1 he' with rfl | he'
              · exact hl
              · exact k5 e' he'
            · exact .inr ⟨e', List.mem_cons_of_mem _ he', k4⟩

/-- What the search has found. -/
structure Found (D : Diagram) (id0 : ℕ) (id1 : ℕ) (ps : Option ℕ) : Prop where
  ne : id1 ≠ id0
  alive : D.Alive id1
  pauli : D.isPauli id1
  len : (D.adj id1).length = (D.adj id0).length
  apart : ∀ e ∈ D.adj id1, e.tgt ≠ id0
  all : ∀ e ∈ D.adj id1, e.type = .hadamard ∧ (D.Leaf e.tgt ∨ ∃ e' ∈ D.adj e.tgt, e'.tgt = id0)
  leaf : (∀ e ∈ D.adj id1, ¬ D.Leaf e.tgt) ∨ ∃ e ∈ D.adj id1, D.Leaf e.tgt ∧ ps = some e.tgt

theorem gadgetSearch_spec {D : Diagram} (h : D.Inv) (id0 : ℕ) : ∀ (l : List Edge) (ps : Option ℕ),
    ∃ r, gadgetSearch D id0 l ps = some r ∧ ∀ id1, r.1 = some id1 → D.Found id0 id1 r.2
  | [], ps => ⟨(none, ps), rfl, fun _ hx => by simp at hx⟩
  | e :: l, ps => by
    unfold gadgetSearch
    by_cases h0 : e.tgt = id0
    · rw [if_pos h0]
      exact gadgetSearch_spec h id0 l ps
    · rw [if_neg h0]
      by_cases h1 : e.type ≠ .hadamard ∨ ¬ D.Alive e.tgt ∨ ¬ D.isPauli e.tgt ∨ (D.adj e.tgt).length ≠ (D.adj id0).length ∨
        findEdge (D.adj e.tgt) id0 ≠ none
      · rw [if_pos h1]
        exact gadgetSearch_spec h id0 l ps
      · rw [if_neg h1]
        simp only [not_or, not_not] at h1
        obtain ⟨h1, h2, h3, h4, h5⟩ := h1
        obtain ⟨⟨found, ps'⟩, k1, k2⟩ := gadgetScan_spec h id0 (D.adj e.tgt) ps
        rw [k1]
        simp only [Option.bind_eq_bind, Option.bind_some]
        cases found with
        | false =>
          rw [if_neg (by simp)]
          exact gadgetSearch_spec h id0 l ps'
        | true =>
          rw [if_pos rfl]
          refine ⟨_, rfl, fun id1 hid => ?_⟩
          simp only [Option.some.injEq] at hid
          subst hid
          obtain ⟨k3, k4⟩ := k2 rfl
          refine ⟨h0, h2, h3, h4, fun e' he' hx => ?_, k3, ?_⟩
          · exact findEdge_ne_none.2 ⟨e', he', hx⟩ h5
          · rcases k4 with k4 | k4
            · exact .inl k4.2
            · exact .inr k4

theorem ty_z {D : Diagram} (hg : D.Gadgets) {w : ℕ} (hb : (graph D).ty w ≠ .boundary) : (graph D).ty w = .z := by
  have := hg.noX w
  cases h : (graph D).ty w <;> simp_all

theorem vert_of_z {D : Diagram} {w : ℕ} (hz : (graph D).ty w = .z) : ∃ d, D.vert w = some d ∧ d.type = .z := by
  obtain ⟨d, hd⟩ := alive_of_inner (D := D) (v := w) (by rw [hz]; simp)
  exact ⟨d, hd, by rw [← ty_of_vert hd, hz]⟩

theorem adj_singleton {l : List Edge} (h : l.length = 1) {e : Edge} (he : e ∈ l) : l = [e] := by
  obtain ⟨a, rfl⟩ := List.length_eq_one_iff.1 h
  rw [List.mem_singleton.1 he]

/-- The other gadget has the same legs. -/
theorem found_spec {D : Diagram} (h : D.Good) (hg : D.Gadgets) {v id0 id1 : ℕ} {ps : Option ℕ} (hv : (graph D).ty v = .z)
    (a0 : D.Alive id0) (hadj : D.adj v = [⟨id0, .hadamard⟩]) (hf : D.Found id0 id1 ps) :
    ∃ p, ps = some p ∧ ⟨p, .hadamard⟩ ∈ D.adj id1 ∧ D.Leaf p ∧ (∀ e ∈ D.adj id1, e.tgt ≠ v ∧ (graph D).ty e.tgt = .z) ∧
      (((D.adj id1).map Edge.tgt).filter fun t => t ≠ p).Perm (((D.adj id0).map Edge.tgt).filter fun t => t ≠ v) := by
  have av : D.Alive v := alive_of_inner (by rw [hv]; simp)
  have nd0 := h.simple.nodup h.inv a0
  have nd1 := h.simple.nodup h.inv hf.alive
  have v0 : v ∈ (D.adj id0).map Edge.tgt :=
    List.mem_map.2 ⟨_, edge_symm h.inv av (e := ⟨id0, .hadamard⟩) (by rw [hadj]; simp), rfl⟩
  have l0 : (((D.adj id0).map Edge.tgt).filter fun t => t ≠ v).length + 1 = (D.adj id0).length := by
    have := List.length_erase_of_mem v0
    rw [nd0.erase_eq_filter, List.length_map] at this
    have h1 := List.length_pos_of_mem v0
    rw [List.length_map] at h1
    have e : (fun t : ℕ => decide (t ≠ v)) = fun t => t != v := by funext t; simp [bne]; rfl
    rw [e]
    omega
  have nv : ∀ e ∈ D.adj id1, e.tgt ≠ v := by
    intro e he hx
    have := edge_symm h.inv hf.alive he
    rw [hx, hadj, List.mem_singleton] at this
    exact hf.ne (congrArg Edge.tgt this)
  have sub : ∀ e ∈ D.adj id1, ¬ D.Leaf e.tgt → e.tgt ∈ ((D.adj id0).map Edge.tgt).filter fun t => t ≠ v := by
    intro e he hl
    rcases (hf.all e he).2 with hx | ⟨e', he', hx⟩
    · exact absurd hx hl
    · have := edge_symm h.inv (h.inv.nb id1 hf.alive e he).1 he'
      rw [hx] at this
      rw [List.mem_filter]
      exact ⟨List.mem_map.2 ⟨_, this, rfl⟩, by simpa using nv e he⟩
  have tz : ∀ e ∈ D.adj id1, (graph D).ty e.tgt = .z := by
    intro e he
    apply ty_z hg
    intro hb
    have ha := (h.inv.nb id1 hf.alive e he).1
    rcases (hf.all e he).2 with hx | ⟨e', he', hx⟩
    · exact hx.1 hb
    · have k1 := total_of_mem h.inv ha he'
      have k2 := total_of_mem h.inv ha (edge_symm h.inv hf.alive he)
      have := h.bd _ _ _ hb k1 k2
      rw [hx] at this
      exact hf.ne this.symm
  rcases hf.leaf with hn | ⟨e, he, hl, hps⟩
  · exfalso
    have : ((D.adj id1).map Edge.tgt).Subperm (((D.adj id0).map Edge.tgt).filter fun t => t ≠ v) := by
      apply nd1.subperm
      intro t ht
      obtain ⟨e, he, rfl⟩ := List.mem_map.1 ht
      exact sub e he (hn e he)
    have := this.length_le
    rw [List.length_map, hf.len] at this
    omega
  · refine ⟨e.tgt, hps, ?_, hl, fun e' he' => ⟨nv e' he', tz e' he'⟩, ?_⟩
    · have := (hf.all e he).1
      rw [← this]
      exact he
    · have p1 : e.tgt ∈ (D.adj id1).map Edge.tgt := List.mem_map.2 ⟨e, he, rfl⟩
      have l1 : (((D.adj id1).map Edge.tgt).filter fun t => t ≠ e.tgt).length + 1 = (D.adj id1).length := by
        have := List.length_erase_of_mem p1
        rw [nd1.erase_eq_filter, List.length_map] at this
        have h1 := List.length_pos_of_mem p1
        rw [List.length_map] at h1
        have e : (fun t : ℕ => decide (t ≠ e.tgt)) = fun t => t != e.tgt := by funext t; simp [bne]; rfl
        rw [e]
        omega
      apply List.Subperm.perm_of_length_le
      · apply (nd1.filter _).subperm
        intro t ht
        obtain ⟨m, hn⟩ := List.mem_filter.1 ht
        obtain ⟨e', he', rfl⟩ := List.mem_map.1 m
        apply sub e' he'
        intro hl'
        have := hg.one id1 hf.alive e' he' e he hl' hl
        simp [this] at hn
      · rw [hf.len] at l1
        omega

/-- Fusing gadgets: the linear map is preserved up to a factor. -/
theorem fuseGadget_sound {D : Diagram} (h : D.Good) (hg : D.Gadgets) {v : ℕ} (av : D.Alive v) :
    ∃ D' b, D.checkAndFuseGadget v = some (D', b) ∧ D'.Good ∧ D.SameC D' ∧ (b = false → D' = D) := by
  have no : ∃ D' b, (some (D, false) : Option (Diagram × Bool)) = some (D', b) ∧ D'.Good ∧ D.SameC D' ∧ (b = false → D' = D) :=
    ⟨D, false, rfl, h, .refl D, fun _ => rfl⟩
  obtain ⟨dv, hdv⟩ := id av
  unfold checkAndFuseGadget
  rw [if_pos (h.inv.lt av)]
  split
  case h_2 => exact no
  case h_1 e hadj =>
    rw [(type_of_alive h.inv hdv).1]
    simp only [Option.bind_eq_bind, Option.bind_some]
    by_cases hb : dv.type = .boundary
    · rw [if_pos hb]; exact no
    rw [if_neg hb]
    have hvz : (graph D).ty v = .z := ty_z hg (by rw [ty_of_vert hdv]; exact hb)
    have dvz : dv.type = .z := by rw [← ty_of_vert hdv, hvz]
    have he : e ∈ D.adj v := by rw [hadj]; simp
    obtain ⟨a0, hne⟩ := h.inv.nb v av e he
    obtain ⟨d0, hd0⟩ := id a0
    rw [phase_of_vert h.inv hd0]
    simp only [Option.bind_some]
    by_cases hc : ¬ d0.phase.isPauli ∨ (D.adj e.tgt).length < 2 ∨ e.type ≠ .hadamard
    · rw [if_pos hc]; exact no
    rw [if_neg hc]
    simp only [not_or, not_not, not_lt] at hc
    obtain ⟨hp0, hlen, heH⟩ := hc
    have hadj' : D.adj v = [⟨e.tgt, .hadamard⟩] := by rw [hadj, ← heH]
    have z0 : (graph D).ty e.tgt = .z := ty_z hg fun hb => by
      have := boundary_length h a0 hb
      omega
    have d0z : d0.type = .z := by rw [← ty_of_vert hd0, z0]
    have nd0 := h.simple.nodup h.inv a0
    have back : ⟨v, .hadamard⟩ ∈ D.adj e.tgt := by
      have := edge_symm h.inv av he
      rwa [heH] at this
    have leafv : D.Leaf v := ⟨by rw [hvz]; simp, by rw [hadj]; rfl⟩
    have backH : ∀ f ∈ D.adj e.tgt, f.tgt = v → f.type = .hadamard := by
      intro f hf hx
      have := List.inj_on_of_nodup_map nd0 hf back hx
      rw [this]
    split
    case h_1 a b hab =>
      set f : Edge := if a.tgt = v then b else a with hfdef
      have hfm : f ∈ D.adj e.tgt := by rw [hfdef, hab]; split_ifs <;> simp
      have nab : a.tgt ≠ b.tgt := by
        rw [hab] at nd0
        simpa using nd0
      have hfv : f.tgt ≠ v := by
        rw [hfdef]
        split_ifs with hx
        · rw [← hx]; exact nab.symm
        · exact hx
      by_cases hfH : f.type ≠ .hadamard
      · rw [if_pos hfH]; exact no
      rw [if_neg hfH, phase_of_vert h.inv hdv]
      simp only [Option.bind_some]
      rw [not_not] at hfH
      have hmem : ∀ g ∈ D.adj e.tgt, g.tgt = v ∨ g = f := by
        intro g hgm
        have hor : a.tgt = v ∨ b.tgt = v := by
          rw [hab] at back
          rcases List.mem_cons.1 back with hx | hx
          · left; rw [← hx]
          · right; rw [← List.mem_singleton.1 hx]
        rw [hab] at hgm
        rw [hfdef]
        rcases List.mem_cons.1 hgm with rfl | hgm
        · by_cases hx : g.tgt = v
          · exact .inl hx
          · rw [if_neg hx]; exact .inr rfl
        · have := List.mem_singleton.1 hgm
          subst this
          by_cases hx : a.tgt = v
          · rw [if_pos hx]; exact .inr rfl
          · left; tauto
      have ga : D.GadgetAt D.verts v e.tgt dv d0 := by
        refine ⟨subset_rfl, hne.symm, h.inv.mem_verts.2 av, h.inv.mem_verts.2 a0, hdv, hd0, dvz, d0z, hadj', ?_⟩
        intro g hgm
        refine ⟨?_, ?_, h.inv.mem_verts.2 (h.inv.nb _ a0 g hgm).1⟩
        · rcases hmem g hgm with hx | rfl
          · exact backH g hgm hx
          · exact hfH
        · exact ty_z hg (hg.inner e.tgt a0 (by rw [hab]; rfl) _ back g hgm leafv)
      obtain ⟨D1, k1, k2, k3, k4, k5⟩ := absorb_sound h ga hp0 (f := f)
        (by
          intro x
          have : signs v x (D.adj e.tgt) = sg true (x f.tgt) := by
            have hor : a.tgt = v ∨ b.tgt = v := by
              rw [hab] at back
              rcases List.mem_cons.1 back with hx | hx
              · left; rw [← hx]
              · right; rw [← List.mem_singleton.1 hx]
            rw [hab]
            unfold signs
            simp only [List.map_cons, List.map_nil, List.prod_cons, List.prod_nil, mul_one]
            rw [hfdef]
            by_cases hx : a.tgt = v
            · rw [if_neg (not_not.2 hx), if_pos hx, if_pos (by rw [← hx]; exact nab.symm), one_mul]
            · rw [if_pos hx, if_neg hx, if_neg (by tauto), mul_one]
          exact this) hfm hfv
      rw [k1]
      simp only [Option.bind_some]
      rw [k2]
      simp only [Option.bind_some]
      rw [k3]
      exact ⟨_, true, rfl, k4, k5, fun hx => by simp at hx⟩
    case h_2 hnab =>
      by_cases hH : ∃ f ∈ (D.adj e.tgt).filter fun f => f.tgt ≠ v, f.type ≠ .hadamard
      · rw [if_pos hH]; exact no
      rw [if_neg hH]
      push Not at hH
      have allH : ∀ f ∈ D.adj e.tgt, f.type = .hadamard := by
        intro f hf
        by_cases hx : f.tgt = v
        · exact backH f hf hx
        · exact hH f (List.mem_filter.2 ⟨hf, by simpa using hx⟩)
      split
      case h_1 hlast =>
        exfalso
        rw [List.getLast?_eq_none_iff, List.filter_eq_nil_iff] at hlast
        match hl : D.adj e.tgt with
        | [] => rw [hl] at hlen; simp at hlen
        | [_] => rw [hl] at hlen; simp at hlen
        | a :: b :: r =>
          have h1 := hlast a (by rw [hl]; simp)
          have h2 := hlast b (by rw [hl]; simp)
          simp only [ne_eq, decide_not, Bool.not_eq_true', decide_eq_false_iff_not, not_not] at h1 h2
          rw [hl] at nd0
          simp [h1, h2] at nd0
      case h_2 n0 hlast =>
        obtain ⟨⟨o1, ps⟩, k1, k2⟩ := gadgetSearch_spec h.inv e.tgt (D.adj n0.tgt) none
        rw [k1]
        simp only [Option.bind_some]
        split
        case h_2 => exact no
        case h_1 id1 p =>
          have hf := k2 id1 rfl
          obtain ⟨p', hpp, hpm, hpl, hz1, hperm⟩ := found_spec h hg hvz a0 hadj' hf
          simp only [Option.some.injEq] at hpp
          subst hpp
          obtain ⟨q1, hq1, hpa1⟩ := hf.pauli
          obtain ⟨d1, hd1, rfl⟩ := phase_eq hq1
          have tp : (graph D).ty p = .z := (hz1 _ hpm).2
          obtain ⟨dp, hdp, tdp⟩ := vert_of_z tp
          have adjp : D.adj p = [⟨id1, .hadamard⟩] := adj_singleton hpl.2 (edge_symm h.inv hf.alive hpm)
          have z1 : (graph D).ty id1 = .z := ty_z hg fun hb => by
            have := boundary_length h hf.alive hb
            have := hf.len
            omega
          have pne : p ≠ id1 := (h.inv.nb id1 hf.alive _ hpm).2
          have ap : D.Alive p := ⟨dp, hdp⟩
          -- no edges between the gadgets
          have n0p : ∀ f ∈ D.adj e.tgt, f.tgt ≠ p ∧ f.tgt ≠ id1 := by
            intro f hf'
            have hs := edge_symm h.inv a0 hf'
            constructor
            · intro hx
              rw [hx, adjp, List.mem_singleton] at hs
              exact hf.ne (congrArg Edge.tgt hs).symm
            · intro hx
              rw [hx] at hs
              exact hf.apart _ hs rfl
          have hv1 : v ≠ id1 := by
            intro hx
            have := hf.len
            rw [← hx, hadj] at this
            simp at this
            omega
          have hvp : v ≠ p := fun hx => (hz1 _ hpm).1 hx.symm
          have h0p : e.tgt ≠ p := fun hx => hf.apart _ hpm hx.symm
          have inV : ∀ w, D.Alive w → w ≠ p → w ≠ id1 → w ∈ (D.verts.erase p).erase id1 := fun w h1 h2 h3 =>
            Finset.mem_erase.2 ⟨h3, Finset.mem_erase.2 ⟨h2, h.inv.mem_verts.2 h1⟩⟩
          have z0' : ∀ f ∈ D.adj e.tgt, (graph D).ty f.tgt = .z := by
            intro f hf'
            by_cases hx : f.tgt = v
            · rw [hx]; exact hvz
            · have : f.tgt ∈ ((D.adj e.tgt).map Edge.tgt).filter fun t => t ≠ v :=
                List.mem_filter.2 ⟨List.mem_map.2 ⟨f, hf', rfl⟩, by simpa using hx⟩
              have := hperm.mem_iff.2 this
              obtain ⟨e', he', hx'⟩ := List.mem_map.1 (List.mem_filter.1 this).1
              rw [← hx']
              exact (hz1 e' he').2
          have g1 : D.GadgetAt D.verts p id1 dp d1 := by
            refine ⟨subset_rfl, pne, h.inv.mem_verts.2 ap, h.inv.mem_verts.2 hf.alive, hdp, hd1, tdp, ?_, adjp, ?_⟩
            · rw [← ty_of_vert hd1, z1]
            · intro f hf'
              exact ⟨(hf.all f hf').1, (hz1 f hf').2, h.inv.mem_verts.2 (h.inv.nb _ hf.alive f hf').1⟩
          have g0 : D.GadgetAt ((D.verts.erase p).erase id1) v e.tgt dv d0 := by
            refine ⟨(Finset.erase_subset _ _).trans (Finset.erase_subset _ _), hne.symm, inV _ av hvp hv1, inV _ a0 h0p hf.ne.symm,
              hdv, hd0, dvz, d0z, hadj', ?_⟩
            intro f hf'
            exact ⟨allH f hf', z0' f hf', inV _ (h.inv.nb _ a0 f hf').1 (n0p f hf').1 (n0p f hf').2⟩
          obtain ⟨D', m1, m2, m3⟩ := merge_sound h g0 g1 hp0 hpa1 (fun x => (signs_perm x hperm).symm)
            (fun f hf' => ⟨(hz1 f hf').1, hf.apart f hf'⟩)
          simp only [m1, Option.bind_some]
          exact ⟨D', true, rfl, m2, m3, fun hx => by simp at hx⟩

end Diagram

end MQT.ZX
