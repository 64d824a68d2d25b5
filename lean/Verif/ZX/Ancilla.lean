/-
Ancillas (`makeAncilla`) and the test for the identity (`isIdentity`).
-/
import Verif.ZX.ConcatMain

set_option autoImplicit false

noncomputable section

open Classical

open Function (update)

namespace MQT.ZX

open Diagram

namespace Diagram

/-! ### Model -/

/-- `setType` (ZXDiagram.hpp 336-341). -/
def setTy (D : Diagram) (v : ℕ) (t : VType) : Diagram :=
  { D with vert := update D.vert v ((D.vert v).map fun d => { d with type := t }) }

/-- `makeAncilla` (ZXDiagram.cpp 334-342).  Undefined if there is no such input or output. -/
def makeAncilla (D : Diagram) (i o : ℕ) : Option Diagram :=
  match D.inputs[i]?, D.outputs[o]? with
  | some a, some b =>
    some (({ D with inputs := D.inputs.eraseIdx i, outputs := D.outputs.eraseIdx o }.setTy a .x).setTy b .x)
  | _, _ => none

/-- `connected` (ZXDiagram.cpp 149-159), for vertices of the diagram. -/
def connected (D : Diagram) (u v : ℕ) : Bool := decide (D.Alive u ∧ D.Alive v) && (D.adj u).any fun e => e.tgt == v

/-- The loop of `isIdentity` (ZXDiagram.cpp 295-301).  Undefined if there are too few outputs. -/
def paired (D : Diagram) : List ℕ → List ℕ → Option Bool
  | [], _ => some true
  | i :: l, o :: m => if D.connected i o then paired D l m else some false
  | _ :: _, [] => none

/-- `isIdentity` (ZXDiagram.cpp 290-302). -/
def isIdentity (D : Diagram) : Option Bool :=
  if D.nedges ≠ (D.inputs.length : ℤ) ∨ ¬ D.globalPhase.isZero then some false else D.paired D.inputs D.outputs

/-! ### Specification -/

/-- The bits with a bit 0 inserted at position `i`. -/
def ins0 (i : ℕ) (x : ℕ → Bool) (j : ℕ) : Bool := if j < i then x j else if j = i then false else x (j - 1)

/-- A boundary vertex with one edge, and without phase. -/
structure Port (D : Diagram) (v : ℕ) : Prop where
  one : D.adj v = [D.end1 v]
  data : ∃ d, D.vert v = some d ∧ d.type = .boundary ∧ d.phase.isZero

/-- Inputs and outputs are different boundary vertices, `n` each. -/
structure Ports (n : ℕ) (D : Diagram) : Prop where
  inv : D.Inv
  inL : D.inputs.length = n
  outL : D.outputs.length = n
  nodup : (D.inputs ++ D.outputs).Nodup
  alive : ∀ v ∈ D.inputs ++ D.outputs, D.Alive v
  ty : ∀ v ∈ D.inputs ++ D.outputs, (graph D).ty v = .boundary

/-! ### Ancillas -/

theorem setTy_vert {D : Diagram} {v : ℕ} {d : VData} (hd : D.vert v = some d) (t : VType) :
    D.setTy v t = { D with vert := update D.vert v (some { d with type := t }) } := by
  unfold setTy
  rw [hd]
  rfl

theorem setTy_alive (D : Diagram) (v : ℕ) (t : VType) (w : ℕ) : (D.setTy v t).Alive w ↔ D.Alive w := by
  unfold Alive setTy
  simp only
  by_cases hw : w = v
  · subst hw
    cases h : D.vert w <;> simp
  · rw [Function.update_of_ne hw]

theorem setTy_inv {D : Diagram} (h : D.Inv) (v : ℕ) (t : VType) : (D.setTy v t).Inv := by
  apply h.of_adj
  · rfl
  · intro w
    exact setTy_alive D v t w
  · rfl
  · rfl
  · exact h.ne
  · exact h.sym
  · exact h.nb

theorem setTy_verts (D : Diagram) (v : ℕ) (t : VType) : (D.setTy v t).verts = D.verts := by
  unfold verts
  apply Finset.filter_congr
  intro w _
  exact setTy_alive D v t w

theorem setTy_m (D : Diagram) (v : ℕ) (t : VType) (a b : ℕ) (s : EType) : (graph (D.setTy v t)).m a b s = (graph D).m a b s := by
  unfold graph
  simp only [setTy_alive]
  rfl

theorem setTy_ty_self {D : Diagram} {v : ℕ} (h : D.Alive v) (t : VType) : (graph (D.setTy v t)).ty v = t := by
  obtain ⟨d, hd⟩ := h
  have : (D.setTy v t).vert v = some { d with type := t } := by
    rw [setTy_vert hd]
    exact Function.update_self _ _ _
  rw [ty_of_vert this]

theorem setTy_ty_of_ne {D : Diagram} {v w : ℕ} (h : w ≠ v) (t : VType) : (graph (D.setTy v t)).ty w = (graph D).ty w := by
  unfold Graph.ty graph setTy
  simp only
  rw [Function.update_of_ne h]

/-- Summing over an X spider with one edge is setting its bit to 0. -/
theorem ew_ancilla (t : EType) (a : VType) : ∃ k : ℝ, 0 < k ∧ ∀ q : Bool,
    ew t .x a false q + ew t .x a true q = k * ew t .boundary a false q := by
  by_cases h : odd t .x a
  · refine ⟨2, by norm_num, fun q => ?_⟩
    cases t <;> cases a <;> cases q <;> simp [odd] at h <;> simp [ew, odd] <;> norm_num
  · refine ⟨1, by norm_num, fun q => ?_⟩
    cases t <;> cases a <;> cases q <;> simp [odd] at h <;> simp [ew, odd]

theorem setTy_val {D : Diagram} (h : D.Inv) {v : ℕ} (hp : D.Port v) :
    ∃ k : ℝ, 0 < k ∧ ∀ ρ β, val ρ (D.setTy v .x) β = k * val ρ D (update β v false) := by
  obtain ⟨d, hd, hb, hz⟩ := hp.data
  have hal : D.Alive v := ⟨d, hd⟩
  have hmem : v ∈ D.verts := h.mem_verts.2 hal
  obtain ⟨hta, htv⟩ := h.nb v hal (D.end1 v) (by rw [hp.one]; exact List.mem_singleton.2 rfl)
  obtain ⟨k, hk, hew⟩ := ew_ancilla (D.end1 v).type ((graph D).ty (D.end1 v).tgt)
  refine ⟨k, hk, fun ρ β => ?_⟩
  have hvi : v ∉ D.inner := fun hm => (Finset.mem_filter.1 hm).2 (by rw [ty_of_vert hd, hb])
  have hin : (D.setTy v .x).inner = insert v D.inner := by
    ext w
    unfold inner
    rw [Finset.mem_filter, Finset.mem_insert, Finset.mem_filter, setTy_verts]
    by_cases hw : w = v
    · subst hw
      rw [setTy_ty_self hal]
      simp [hmem]
    · rw [setTy_ty_of_ne hw]
      simp [hw]
  have htm : (D.end1 v).tgt ∈ D.verts.erase v := Finset.mem_erase.2 ⟨htv, h.mem_verts.2 hta⟩
  have hW : ∀ x, (graph (D.setTy v .x)).W ρ (D.setTy v .x).verts x =
      ew (D.end1 v).type .x ((graph D).ty (D.end1 v).tgt) (x v) (x (D.end1 v).tgt) * (graph D).W ρ (D.verts.erase v) x := by
    intro x
    rw [setTy_verts, Graph.W_erase ρ (graph_symm (setTy_inv h v .x)) x hmem,
      prod_pf (setTy_inv h v .x) (by rw [setTy_verts]; exact Finset.erase_subset _ _) x ((setTy_alive D v .x v).2 hal)]
    rw [show (D.setTy v .x).adj v = [D.end1 v] from hp.one]
    simp only [List.map_cons, List.map_nil, List.prod_cons, List.prod_nil]
    rw [if_pos htm, setTy_ty_self hal, setTy_ty_of_ne htv, mul_one]
    have hvf : (graph (D.setTy v .x)).vf ρ x v = 1 := by
      rw [vf_inner ρ (D := D.setTy v .x) (d := { d with type := .x }) (by rw [setTy_vert hd]; exact Function.update_self _ _ _) (by simp) x]
      simp only
      rw [Phase.u_of_isZero ρ hz]
      simp
    rw [hvf, one_mul]
    congr 1
    apply Graph.W_congr
    · intro w hw
      show (D.setTy v .x).vert w = D.vert w
      unfold setTy
      simp only
      rw [Function.update_of_ne (Finset.ne_of_mem_erase hw)]
    · intro a _ b _ t
      exact setTy_m D v .x a b t
    · exact fun _ _ => rfl
  have hW0 : ∀ x, (graph D).W ρ D.verts (update x v false) =
      ew (D.end1 v).type .boundary ((graph D).ty (D.end1 v).tgt) false (x (D.end1 v).tgt) * (graph D).W ρ (D.verts.erase v) x := by
    intro x
    rw [Graph.W_erase ρ (graph_symm h) _ hmem, prod_pf h (Finset.erase_subset _ _) _ hal, hp.one]
    simp only [List.map_cons, List.map_nil, List.prod_cons, List.prod_nil]
    rw [if_pos htm, ty_of_vert hd, hb, mul_one, Function.update_self, Function.update_of_ne htv]
    have hvf : (graph D).vf ρ (update x v false) v = 1 := by
      unfold Graph.vf
      rw [show (graph D).vert v = some d from hd]
      simp [hb]
    rw [hvf, one_mul]
    congr 1
    apply W_base
    intro w hw
    exact Function.update_of_ne (Finset.ne_of_mem_erase hw) _ _
  have he : ∀ (x : ℕ → Bool) p, (graph D).W ρ (D.verts.erase v) (update x v p) = (graph D).W ρ (D.verts.erase v) x := by
    intro x p
    apply W_base
    intro w hw
    exact Function.update_of_ne (Finset.ne_of_mem_erase hw) _ _
  unfold val
  rw [show (D.setTy v .x).globalPhase = D.globalPhase from rfl, hin, sumOver_insert hvi, sumOver_update hvi, mul_left_comm (k : ℂ)]
  congr 1
  rw [← sumOver_mul]
  apply sumOver_congr
  intro x
  rw [hW, hW, hW0, he, he, Function.update_self, Function.update_self, Function.update_of_ne htv, Function.update_of_ne htv, ← add_mul, hew, mul_assoc]

theorem setTy_port {D : Diagram} {v w : ℕ} (hw : w ≠ v) (t : VType) (hp : D.Port w) : (D.setTy v t).Port w := by
  refine ⟨hp.one, ?_⟩
  obtain ⟨d, hd, h⟩ := hp.data
  refine ⟨d, ?_, h⟩
  unfold setTy
  simp only
  rw [Function.update_of_ne hw, hd]

/-- The bits of the others, without the bit at `i`. -/
theorem ins0_idxOf (x : ℕ → Bool) : ∀ {l : List ℕ} {i a v : ℕ}, l.Nodup → l[i]? = some a → v ∈ l → v ≠ a →
    v ∈ l.eraseIdx i ∧ ins0 i x (l.idxOf v) = x ((l.eraseIdx i).idxOf v) := by
  intro l
  induction l generalizing x with
  | nil =>
    intro i a v _ hi
    simp at hi
  | cons b l ih =>
    intro i a v hn hi hv hne
    obtain ⟨h1, h2⟩ := List.nodup_cons.1 hn
    cases i with
    | zero =>
      simp only [List.getElem?_cons_zero, Option.some.injEq] at hi
      subst hi
      have hvl := (List.mem_cons.1 hv).resolve_left hne
      rw [List.eraseIdx_cons_zero, List.idxOf_cons_ne _ (Ne.symm hne)]
      refine ⟨hvl, ?_⟩
      unfold ins0
      simp
    | succ i =>
      simp only [List.getElem?_cons_succ] at hi
      rw [List.eraseIdx_cons_succ]
      by_cases hb : v = b
      · subst hb
        refine ⟨List.mem_cons_self, ?_⟩
        rw [List.idxOf_cons_self, List.idxOf_cons_self]
        unfold ins0
        simp
      · have hvl := (List.mem_cons.1 hv).resolve_left hb
        obtain ⟨m, e⟩ := ih (fun j => x (j + 1)) h2 hi hvl hne
        refine ⟨List.mem_cons_of_mem _ m, ?_⟩
        rw [List.idxOf_cons_ne _ (Ne.symm hb), List.idxOf_cons_ne _ (Ne.symm hb), ← e]
        unfold ins0
        by_cases c1 : l.idxOf v < i
        · rw [if_pos c1, if_pos (by omega)]
        · rw [if_neg c1, if_neg (by omega)]
          by_cases c2 : l.idxOf v = i
          · rw [if_pos c2, if_pos (by omega)]
          · rw [if_neg c2, if_neg (by omega)]
            congr 1
            omega

theorem mem_eraseIdx_of {l : List ℕ} {i v : ℕ} (h : v ∈ l.eraseIdx i) : v ∈ l := List.mem_of_mem_eraseIdx h

theorem notMem_eraseIdx {l : List ℕ} {i a : ℕ} (hn : l.Nodup) (hi : l[i]? = some a) : a ∉ l.eraseIdx i := by
  induction l generalizing i with
  | nil => simp
  | cons b l ih =>
    obtain ⟨h1, h2⟩ := List.nodup_cons.1 hn
    cases i with
    | zero =>
      simp only [List.getElem?_cons_zero, Option.some.injEq] at hi
      subst hi
      rwa [List.eraseIdx_cons_zero]
    | succ i =>
      simp only [List.getElem?_cons_succ] at hi
      rw [List.eraseIdx_cons_succ, List.mem_cons]
      rintro (e | e)
      · subst e
        exact h1 (List.mem_of_getElem? hi)
      · exact ih h2 hi e

theorem ins0_self {l : List ℕ} {i a : ℕ} (hn : l.Nodup) (hi : l[i]? = some a) (x : ℕ → Bool) : ins0 i x (l.idxOf a) = false := by
  have : l.idxOf a = i := by
    obtain ⟨hlt, he⟩ := List.getElem?_eq_some_iff.1 hi
    subst he
    exact hn.idxOf_getElem i hlt
  rw [this]
  unfold ins0
  simp

/-- `makeAncilla` fixes a wire to the state 0 at both ends. -/
theorem makeAncilla_spec {D : Diagram} (h : D.Inv) (hn : (D.inputs ++ D.outputs).Nodup) {i o a b : ℕ} (hi : D.inputs[i]? = some a)
    (ho : D.outputs[o]? = some b) (ha : D.Port a) (hb : D.Port b) :
    ∃ F, D.makeAncilla i o = some F ∧ F.Inv ∧ F.inputs = D.inputs.eraseIdx i ∧ F.outputs = D.outputs.eraseIdx o ∧
      ∃ k : ℝ, 0 < k ∧ ∀ ρ y x, entry ρ F y x = k * entry ρ D (ins0 o y) (ins0 i x) := by
  obtain ⟨n1, n2, n3⟩ := List.nodup_append.1 hn
  have ham := List.mem_of_getElem? hi
  have hbm := List.mem_of_getElem? ho
  have hab : b ≠ a := fun e => n3 a ham b hbm e.symm
  obtain ⟨D0, hD0⟩ : ∃ D0 : Diagram, D0 = { D with inputs := D.inputs.eraseIdx i, outputs := D.outputs.eraseIdx o } := ⟨_, rfl⟩
  have i0 : D0.Inv := by
    rw [hD0]
    exact ⟨h.out, h.del, h.nodup, h.nv, h.ne, h.sym, h.nb⟩
  have pa : D0.Port a := by
    rw [hD0]
    exact ⟨ha.one, ha.data⟩
  have pb : D0.Port b := by
    rw [hD0]
    exact ⟨hb.one, hb.data⟩
  obtain ⟨k1, hk1, e1⟩ := setTy_val i0 pa
  obtain ⟨k2, hk2, e2⟩ := setTy_val (setTy_inv i0 a .x) (setTy_port hab .x pb)
  refine ⟨(D0.setTy a .x).setTy b .x, ?_, setTy_inv (setTy_inv i0 a .x) b .x, by rw [hD0]; rfl, by rw [hD0]; rfl, k2 * k1, mul_pos hk2 hk1, ?_⟩
  · unfold makeAncilla
    rw [hi, ho, hD0]
  · intro ρ y x
    unfold entry
    rw [e2, e1, Complex.ofReal_mul, mul_assoc]
    congr 2
    have hv : ∀ β, val ρ D0 β = val ρ D β := by
      intro β
      rw [hD0]
      rfl
    rw [hv]
    congr 1
    funext v
    have hin : ((D0.setTy a .x).setTy b .x).inputs = D.inputs.eraseIdx i := by rw [hD0]; rfl
    have hout : ((D0.setTy a .x).setTy b .x).outputs = D.outputs.eraseIdx o := by rw [hD0]; rfl
    rw [hin, hout]
    unfold bitsOf
    by_cases va : v = a
    · subst va
      rw [Function.update_self, if_pos ham, ins0_self n1 hi]
    rw [Function.update_of_ne va]
    by_cases vb : v = b
    · subst vb
      rw [Function.update_self, if_neg fun hc => n3 v hc v hbm rfl, if_pos hbm, ins0_self n2 ho]
    rw [Function.update_of_ne vb]
    by_cases hvi : v ∈ D.inputs
    · obtain ⟨m, e⟩ := ins0_idxOf x n1 hi hvi va
      rw [if_pos hvi, if_pos m, e]
    rw [if_neg hvi, if_neg fun hc => hvi (mem_eraseIdx_of hc)]
    by_cases hvo : v ∈ D.outputs
    · obtain ⟨m, e⟩ := ins0_idxOf y n2 ho hvo vb
      rw [if_pos hvo, if_pos m, e]
    rw [if_neg hvo, if_neg fun hc => hvo (mem_eraseIdx_of hc)]

/-! ### The identity -/

theorem connected_iff {D : Diagram} {u v : ℕ} : D.connected u v = true ↔ D.Alive u ∧ D.Alive v ∧ ∃ t, (⟨v, t⟩ : Edge) ∈ D.adj u := by
  unfold connected
  rw [Bool.and_eq_true, decide_eq_true_iff, List.any_eq_true, and_assoc]
  simp only [beq_iff_eq]
  refine and_congr_right fun _ => and_congr_right fun _ => ?_
  constructor
  · rintro ⟨⟨w, t⟩, he, rfl⟩
    exact ⟨t, he⟩
  · rintro ⟨t, he⟩
    exact ⟨_, he, rfl⟩

theorem paired_iff {D : Diagram} : ∀ {l m : List ℕ}, l.length ≤ m.length →
    (D.paired l m = some true ↔ ∀ k < l.length, D.connected (l.getD k 0) (m.getD k 0) = true)
  | [], m, _ => by simp [paired]
  | a :: l, [], h => by simp at h
  | a :: l, b :: m, h => by
    unfold paired
    by_cases hc : D.connected a b = true
    · rw [if_pos hc, paired_iff (by simpa using h)]
      constructor
      · intro hk k hlt
        cases k with
        | zero => simpa using hc
        | succ k =>
          have := hk k (by simpa using hlt)
          simpa using this
      · intro hk k hlt
        have := hk (k + 1) (by simpa using hlt)
        simpa using this
    · rw [if_neg hc]
      constructor
      · intro e
        cases e
      · intro hk
        exact absurd (by simpa using hk 0 (by simp)) hc

/-- What `isIdentity` says about the edges: the `k`-th input is joined with the `k`-th output, and there are no other edges. -/
structure Wires (n : ℕ) (D : Diagram) : Prop where
  phase : D.globalPhase.isZero
  wire : ∀ k < n, ∃ t, D.adj (D.inputs.getD k 0) = [⟨D.outputs.getD k 0, t⟩] ∧ D.adj (D.outputs.getD k 0) = [⟨D.inputs.getD k 0, t⟩]
  none : ∀ v, D.Alive v → v ∉ D.inputs ++ D.outputs → D.adj v = []

theorem mem_getD {l : List ℕ} {v : ℕ} (h : v ∈ l) : ∃ k < l.length, l.getD k 0 = v := by
  obtain ⟨k, hk, e⟩ := List.getElem_of_mem h
  refine ⟨k, hk, ?_⟩
  rw [List.getD_eq_getElem?_getD, List.getElem?_eq_getElem hk]
  exact e

theorem ports_sum {n : ℕ} {D : Diagram} (P : Ports n D) :
    ∑ u ∈ D.verts, (if u ∈ D.inputs ++ D.outputs then 1 else 0 : ℤ) = 2 * n := by
  rw [Finset.sum_ite, Finset.sum_const_zero, add_zero, Finset.sum_const, nsmul_eq_mul, mul_one]
  have : D.verts.filter (fun u => u ∈ D.inputs ++ D.outputs) = (D.inputs ++ D.outputs).toFinset := by
    ext u
    rw [Finset.mem_filter, List.mem_toFinset, P.inv.mem_verts]
    exact ⟨fun h => h.2, fun h => ⟨P.alive u h, h⟩⟩
  rw [this, List.toFinset_card_of_nodup P.nodup, List.length_append, P.inL, P.outL]
  push_cast
  ring

theorem isIdentity_iff {n : ℕ} {D : Diagram} (P : Ports n D) : D.isIdentity = some true ↔ Wires n D := by
  unfold isIdentity
  constructor
  · intro h
    split at h
    · simp at h
    next hc =>
    push Not at hc
    rw [paired_iff (by rw [P.inL, P.outL]), P.inL] at h
    have hio : ∀ k < n, ∃ t, (⟨D.outputs.getD k 0, t⟩ : Edge) ∈ D.adj (D.inputs.getD k 0) ∧ (⟨D.inputs.getD k 0, t⟩ : Edge) ∈ D.adj (D.outputs.getD k 0) := by
      intro k hk
      obtain ⟨a1, a2, t, ht⟩ := connected_iff.1 (h k hk)
      refine ⟨t, ht, ?_⟩
      have := P.inv.sym _ _ t a1 a2
      unfold mult at this
      exact List.count_pos_iff.1 (this ▸ List.count_pos_iff.2 ht)
    have hge : ∀ u ∈ D.verts, (if u ∈ D.inputs ++ D.outputs then 1 else 0 : ℤ) ≤ ((D.adj u).length : ℤ) := by
      intro u _
      split
      next hu =>
        have : 0 < (D.adj u).length := by
          rcases List.mem_append.1 hu with hu | hu
          · obtain ⟨k, hk, rfl⟩ := mem_getD hu
            obtain ⟨t, ht, -⟩ := hio k (by rw [← P.inL]; exact hk)
            exact List.length_pos_of_mem ht
          · obtain ⟨k, hk, rfl⟩ := mem_getD hu
            obtain ⟨t, -, ht⟩ := hio k (by rw [← P.outL]; exact hk)
            exact List.length_pos_of_mem ht
        omega
      · omega
    have heq := (Finset.sum_eq_sum_iff_of_le hge).1 (by rw [ports_sum P, ← P.inv.ne, hc.1, P.inL])
    have hone : ∀ u ∈ D.inputs ++ D.outputs, ∀ e ∈ D.adj u, D.adj u = [e] := by
      intro u hu e he
      have := heq u (P.inv.mem_verts.2 (P.alive u hu))
      rw [if_pos hu] at this
      obtain ⟨e', he'⟩ := List.length_eq_one_iff.1 (show (D.adj u).length = 1 by omega)
      rw [he'] at he ⊢
      rw [List.mem_singleton.1 he]
    refine ⟨hc.2, ?_, ?_⟩
    · intro k hk
      obtain ⟨t, h1, h2⟩ := hio k hk
      exact ⟨t, hone _ (List.mem_append_left _ (getD_mem (by rw [P.inL]; exact hk))) _ h1,
        hone _ (List.mem_append_right _ (getD_mem (by rw [P.outL]; exact hk))) _ h2⟩
    · intro v hv hn
      have := heq v (P.inv.mem_verts.2 hv)
      rw [if_neg hn] at this
      exact List.length_eq_zero_iff.1 (by omega)
  · intro w
    have hlen : ∀ u ∈ D.verts, ((D.adj u).length : ℤ) = if u ∈ D.inputs ++ D.outputs then 1 else 0 := by
      intro u hu
      split
      next hm =>
        rcases List.mem_append.1 hm with hm | hm
        · obtain ⟨k, hk, rfl⟩ := mem_getD hm
          obtain ⟨t, e, -⟩ := w.wire k (by rw [← P.inL]; exact hk)
          rw [e]
          rfl
        · obtain ⟨k, hk, rfl⟩ := mem_getD hm
          obtain ⟨t, -, e⟩ := w.wire k (by rw [← P.outL]; exact hk)
          rw [e]
          rfl
      next hm =>
        rw [w.none u (P.inv.mem_verts.1 hu) hm]
        rfl
    have hne : D.nedges = (D.inputs.length : ℤ) := by
      have := P.inv.ne
      rw [Finset.sum_congr rfl hlen, ports_sum P] at this
      rw [P.inL]
      omega
    rw [if_neg (by push Not; exact ⟨hne, w.phase⟩), paired_iff (by rw [P.inL, P.outL]), P.inL]
    intro k hk
    obtain ⟨t, e, -⟩ := w.wire k hk
    refine connected_iff.2 ⟨P.alive _ (List.mem_append_left _ (getD_mem (by rw [P.inL]; exact hk))),
      P.alive _ (List.mem_append_right _ (getD_mem (by rw [P.outL]; exact hk))), t, ?_⟩
    rw [e]
    exact List.mem_singleton.2 rfl

theorem sumOver_prod_on (h : ℕ → Bool → ℂ) (b : ℕ → Bool) (L : Finset ℕ) :
    sumOver L (fun z => ∏ k ∈ L, h k (z k)) b = ∏ k ∈ L, (h k false + h k true) := by
  induction L using Finset.induction_on with
  | empty => simp [sumOver]
  | insert a L ha ih =>
    rw [sumOver_insert ha, Finset.prod_insert ha, ← ih, ← sumOver_mul]
    apply sumOver_congr
    intro z
    rw [Finset.prod_insert ha, Finset.prod_insert ha, Function.update_self, Function.update_self]
    have : ∀ p, ∏ k ∈ L, h k (update z a p k) = ∏ k ∈ L, h k (z k) := by
      intro p
      apply Finset.prod_congr rfl
      intro k hk
      have hka : k ≠ a := by
        rintro rfl
        exact ha hk
      rw [Function.update_of_ne hka]
    rw [this, this]
    ring

/-- The phase of a vertex. -/
def phaseOf (D : Diagram) (v : ℕ) : Phase := ((D.vert v).map VData.phase).getD Phase.zero

/-- The type of the wire on a qubit. -/
def wireTy (D : Diagram) (k : ℕ) : EType := (D.end1 (D.inputs.getD k 0)).type

/-- The linear map of a diagram of wires. -/
theorem wires_entry {n : ℕ} {D : Diagram} (P : Ports n D) (w : Wires n D) (ρ : ℕ → ℝ) (y x : ℕ → Bool) :
    entry ρ D y x = (∏ v ∈ D.inner, (1 + (D.phaseOf v).u ρ)) * ∏ k ∈ Finset.range n, ew (D.wireTy k) .boundary .boundary (y k) (x k) := by
  obtain ⟨n1, n2, n3⟩ := List.nodup_append.1 P.nodup
  have hout : ∀ k < n, D.outputs.getD k 0 ∈ D.outputs := fun k hk => getD_mem (by rw [P.outL]; exact hk)
  have hinp : ∀ k < n, D.inputs.getD k 0 ∈ D.inputs := fun k hk => getD_mem (by rw [P.inL]; exact hk)
  have hend : ∀ k < n, D.end1 (D.outputs.getD k 0) = ⟨D.inputs.getD k 0, D.wireTy k⟩ := by
    intro k hk
    obtain ⟨t, e1, e2⟩ := w.wire k hk
    unfold wireTy end1
    rw [e1, e2]
    rfl
  have E : D.Ends D.outputs := by
    refine ⟨n2, fun p hp => P.alive p (List.mem_append_right _ hp), fun p hp => P.ty p (List.mem_append_right _ hp), ?_, ?_⟩
    · intro p hp
      obtain ⟨k, hk, rfl⟩ := mem_getD hp
      obtain ⟨t, -, e2⟩ := w.wire k (by rw [← P.outL]; exact hk)
      unfold end1
      rw [e2]
      rfl
    · intro p hp
      obtain ⟨k, hk, rfl⟩ := mem_getD hp
      rw [P.outL] at hk
      rw [hend k hk]
      exact fun hc => n3 _ (hinp k hk) _ hc rfl
  unfold entry
  rw [val_ends P.inv E ρ (β := bitsOf D.inputs D.outputs x y) (β' := bitsOf D.inputs D.outputs x y) (z := y) ?_ (fun _ _ _ => rfl),
    Phase.u_of_isZero ρ w.phase, one_mul]
  swap
  · intro k hk
    unfold bitsOf
    rw [if_neg fun hc => n3 _ hc _ (getD_mem hk) rfl, if_pos (getD_mem hk), idxOf_getD n2 hk]
  have hp := sumOver_prod_on (fun v p => if p = true then (D.phaseOf v).u ρ else 1) (bitsOf D.inputs D.outputs x y) D.inner
  simp only [if_true, Bool.false_eq_true, if_false] at hp
  rw [← hp, mul_comm, ← sumOver_mul]
  · apply sumOver_congr_on
    intro s hs
    rw [mul_comm]
    congr 1
    · rw [P.outL]
      apply Finset.prod_congr rfl
      intro k hk
      have hk := Finset.mem_range.1 hk
      have hmem := List.mem_append_left D.outputs (hinp k hk)
      rw [hend k hk, P.ty _ hmem]
      simp only
      rw [hs _ fun hc => (Finset.mem_filter.1 hc).2 (P.ty _ hmem)]
      unfold bitsOf
      rw [if_pos (hinp k hk), idxOf_getD n1 (by rw [P.inL]; exact hk)]
    · unfold Graph.W
      have hpf : ∀ a ∈ D.verts \ D.outputs.toFinset, ∀ b ∈ D.verts \ D.outputs.toFinset, (if a < b then (graph D).pf s a b else 1) = 1 := by
        intro a ha b hb
        split
        · have hm : ∀ t, (graph D).m a b t = 0 := by
            intro t
            rw [Finset.mem_sdiff, P.inv.mem_verts, List.mem_toFinset] at ha hb
            show (if D.Alive a ∧ D.Alive b then (D.adj a).count ⟨b, t⟩ else 0) = 0
            rw [if_pos ⟨ha.1, hb.1⟩]
            apply List.count_eq_zero.2
            intro hc
            by_cases hai : a ∈ D.inputs
            · obtain ⟨k, hk, rfl⟩ := mem_getD hai
              rw [P.inL] at hk
              obtain ⟨t', e1, -⟩ := w.wire k hk
              rw [e1] at hc
              have : b = D.outputs.getD k 0 := congrArg Edge.tgt (List.mem_singleton.1 hc)
              exact hb.2 (this ▸ hout k hk)
            · rw [w.none a ha.1 fun hc => (List.mem_append.1 hc).elim hai ha.2] at hc
              cases hc
          unfold Graph.pf
          rw [hm, hm]
          simp
        · rfl
      rw [Finset.prod_congr rfl fun a ha => Finset.prod_congr rfl fun b hb => hpf a ha b hb]
      simp only [Finset.prod_const_one, mul_one]
      symm
      apply Finset.prod_subset_one_on_sdiff
      · intro v hv
        obtain ⟨h1, h2⟩ := Finset.mem_filter.1 hv
        rw [Finset.mem_sdiff, List.mem_toFinset]
        exact ⟨h1, fun hc => h2 (P.ty v (List.mem_append_right _ hc))⟩
      · intro v hv
        rw [Finset.mem_sdiff, Finset.mem_sdiff] at hv
        have hb : (graph D).ty v = .boundary := by
          by_contra hc
          exact hv.2 (Finset.mem_filter.2 ⟨hv.1.1, hc⟩)
        obtain ⟨d, hd⟩ := P.inv.mem_verts.1 hv.1.1
        rw [ty_of_vert hd] at hb
        unfold Graph.vf
        rw [show (graph D).vert v = some d from hd]
        simp [hb]
      · intro v hv
        obtain ⟨h1, h2⟩ := Finset.mem_filter.1 hv
        obtain ⟨d, hd⟩ := P.inv.mem_verts.1 h1
        rw [ty_of_vert hd] at h2
        rw [vf_inner ρ hd h2]
        unfold phaseOf
        rw [hd]
        rfl

end Diagram

end MQT.ZX
