/-
The beginning and the end of `buildFunctionality` (FunctionalityConstruction.cpp 607-624), and the whole.
-/
import Verif.ZX.BuildCircuit

set_option autoImplicit false

noncomputable section

open Classical

open Function (update)

namespace MQT.ZX

open MQT.IR MQT.Opt Diagram MQT.IR.Layout
open Diagram hiding phase

namespace Build

/-- The wires that have the bits `β`. -/
def cyl (n : ℕ) (β : ℕ → Bool) : State := fun y => if ∀ q < n, y q = β q then 1 else 0

/-! ### The empty circuit -/

/-- `n` inputs and `i` outputs, with edges for the wires from `k` to `i`. -/
def wires (n i k : ℕ) : Diagram where
  size := n + i
  vert v := if v < n then some ⟨v, Phase.zero, .boundary⟩ else if v < n + i then some ⟨(v - n : ℕ), Phase.zero, .boundary⟩ else none
  adj v := if k ≤ v ∧ v < i then [⟨n + v, .simple⟩] else if n + k ≤ v ∧ v < n + i then [⟨v - n, .simple⟩] else []
  deleted := []
  inputs := List.range n
  outputs := (List.range i).map (n + ·)
  nvertices := n + i
  nedges := i - k
  globalPhase := Phase.zero

theorem initGraph_eq (n : ℕ) : initGraph n = wires n 0 0 := by
  induction n with
  | zero =>
    unfold initGraph wires Diagram.empty
    simp
  | succ k ih =>
    unfold initGraph
    rw [ih]
    unfold wires addVertex
    simp only [List.getLast?_nil, Diagram.mk.injEq]
    refine ⟨trivial, ?_, ?_, trivial, ?_, rfl, by push_cast; ring, by simp, trivial⟩
    · funext v
      by_cases hv : v = k
      · subst hv; simp
      · rw [Function.update_of_ne (by omega)]
        by_cases h1 : v < k
        · rw [if_pos h1, if_pos (by omega)]
        · rw [if_neg h1, if_neg (by omega), if_neg (by omega), if_neg (by omega)]
    · funext v
      by_cases hv : v = k + 0
      · subst hv; simp
      · rw [Function.update_of_ne hv]
        rw [if_neg (by omega), if_neg (by omega), if_neg (by omega), if_neg (by omega)]
    · rw [List.range_succ]
      congr 2
      push_cast
      omega

theorem close_step {n i : ℕ} (hi : i < n) : (lift (((wires n i 0).addVertex ⟨i, Phase.zero, .boundary⟩).1.addEdge i
    ((wires n i 0).addVertex ⟨i, Phase.zero, .boundary⟩).2 .simple)).bind (fun D2 => closeGraph [] { D2 with outputs := D2.outputs ++
      [((wires n i 0).addVertex ⟨i, Phase.zero, .boundary⟩).2] }) = .ok (wires n (i + 1) 0) := by
  have hw : ((wires n i 0).addVertex ⟨i, Phase.zero, .boundary⟩).2 = n + i := by
    unfold wires addVertex
    simp only [List.getLast?_nil]
    omega
  rw [hw]
  unfold addEdge
  rw [if_pos (by constructor <;> (unfold wires addVertex; simp only [List.getLast?_nil]; omega))]
  show Res.ok _ = Res.ok _
  congr 1
  unfold wires addVertex
  simp only [List.getLast?_nil, Diagram.mk.injEq]
  refine ⟨by omega, ?_, ?_, trivial, trivial, ?_, by push_cast; ring, by push_cast; ring, trivial⟩
  · funext v
    by_cases hv : v = n + i
    · subst hv
      rw [Function.update_self, if_neg (by omega), if_pos (by omega)]
      congr 2
      omega
    · rw [Function.update_of_ne hv]
      split_ifs <;> first | rfl | omega
  · funext v
    by_cases hv : v = n + i
    · subst hv
      rw [Function.update_self, Function.update_of_ne (by omega), Function.update_self, if_neg (by omega), if_pos (by omega)]
      simp
    · rw [Function.update_of_ne hv]
      by_cases hv' : v = i
      · subst hv'
        rw [Function.update_self, Function.update_of_ne (by omega), if_neg (by omega), if_neg (by omega), if_pos (by omega)]
        rfl
      · rw [Function.update_of_ne hv', Function.update_of_ne hv]
        split_ifs <;> first | rfl | omega
  · rw [List.range_succ, List.map_append]
    rfl

theorem closeGraph_wires {n : ℕ} : ∀ l i, i + l = n → closeGraph ((List.range l).map (i + ·)) (wires n i 0) = .ok (wires n n 0) := by
  intro l
  induction l with
  | zero =>
    intro i hi
    obtain rfl : i = n := by omega
    rfl
  | succ l ih =>
    intro i hi
    rw [List.range_succ_eq_map, List.map_cons, List.map_map, closeGraph, if_pos (by show i + 0 < n + i; omega)]
    have hv : (wires n i 0).vert (i + 0) = some ⟨i, Phase.zero, .boundary⟩ := by
      unfold wires
      simp only
      rw [if_pos (by omega)]
      simp
    rw [hv]
    simp only
    have h := close_step (n := n) (i := i) (by omega)
    rw [Nat.add_zero]
    obtain ⟨D2, e1, e2⟩ := bind_ok h
    rw [e1]
    unfold closeGraph at e2
    injection e2 with e2
    show closeGraph _ _ = _
    rw [e2]
    have := ih (i + 1) (by omega)
    rw [← this]
    congr 1
    apply List.map_congr_left
    intro a _
    simp only [Function.comp_apply]
    omega

theorem cutWires_wires {n : ℕ} : ∀ k ≤ n, cutWires n k (wires n n 0) = .ok (wires n n k) := by
  intro k
  induction k with
  | zero => intro _; rfl
  | succ k ih =>
    intro hk
    rw [cutWires, ih (by omega)]
    show lift ((wires n n k).removeEdge k (k + n)) = _
    unfold removeEdge removeHalfEdge
    rw [if_pos (by show k < n + n; omega)]
    simp only [Option.bind_eq_bind, Option.bind_some]
    rw [if_pos (by show k + n < n + n; omega)]
    show Res.ok _ = Res.ok _
    congr 1
    unfold wires
    simp only [Diagram.mk.injEq, true_and, and_true]
    refine ⟨?_, by push_cast; ring⟩
    funext v
    by_cases hv : v = k + n
    · subst hv
      rw [Function.update_self, Function.update_of_ne (by omega), if_neg (by omega), if_pos (by omega), if_neg (by omega), if_neg (by omega)]
      simp
    · rw [Function.update_of_ne hv]
      by_cases hv' : v = k
      · subst hv'
        rw [Function.update_self, if_pos (by omega), if_neg (by omega), if_neg (by omega)]
        simp [Nat.add_comm]
      · rw [Function.update_of_ne hv']
        split_ifs <;> first | rfl | omega

theorem wires_alive {n v : ℕ} : (wires n n n).Alive v ↔ v < n + n := by
  unfold Alive wires
  simp only
  split_ifs with h1 h2
  · exact ⟨fun _ => by omega, fun _ => ⟨_, rfl⟩⟩
  · exact ⟨fun _ => by omega, fun _ => ⟨_, rfl⟩⟩
  · exact ⟨fun ⟨_, h⟩ => by simp at h, fun h => absurd h h2⟩

theorem wires_adj {n v : ℕ} : (wires n n n).adj v = [] := by
  unfold wires
  simp only
  rw [if_neg (by omega), if_neg (by omega)]

theorem wires_verts (n : ℕ) : (wires n n n).verts = Finset.range (n + n) := by
  unfold verts
  rw [Finset.filter_true_of_mem]
  · rfl
  · intro v hv
    exact wires_alive.2 (Finset.mem_range.1 hv)

theorem wires_m (n a b : ℕ) (t : EType) : (graph (wires n n n)).m a b t = 0 := by
  unfold graph
  simp only
  split_ifs
  · unfold mult; rw [wires_adj]; rfl
  · rfl

theorem wires_total (n a b : ℕ) : (graph (wires n n n)).total a b = 0 := by
  unfold Graph.total
  rw [wires_m, wires_m]

theorem wires_ty (n v : ℕ) : (graph (wires n n n)).ty v = .boundary := by
  unfold Graph.ty graph wires
  simp only
  split_ifs <;> rfl

theorem wires_good (n : ℕ) : (wires n n n).Good where
  inv := {
    out := fun u hu => by
      have hu : n + n ≤ u := hu
      unfold wires
      simp only
      rw [if_neg (by omega), if_neg (by omega)]
    del := fun u => by
      constructor
      · intro h; cases h
      · rintro ⟨h1, h2⟩
        obtain ⟨d, hd⟩ := wires_alive.2 h1
        rw [hd] at h2
        cases h2
    nodup := List.nodup_nil
    nv := by rw [wires_verts, Finset.card_range]; rfl
    ne := by
      simp only [wires_adj, List.length_nil, Nat.cast_zero, Finset.sum_const_zero]
      unfold wires
      simp
    sym := fun u v t _ _ => by unfold mult; rw [wires_adj, wires_adj]; rfl
    nb := fun u _ e he => by rw [wires_adj] at he; cases he }
  simple u v := by rw [wires_total]; exact Nat.zero_le _
  bd b u v hb h1 h2 := by rw [wires_total] at h1; exact absurd h1 (lt_irrefl _)
  range v e he := by
    unfold wires at he
    simp only at he
    split_ifs at he <;>
    · injection he with he
      rw [← he]
      exact zero_inRange

theorem tip_range {n q : ℕ} (hq : q < n) : tip ⟨wires n n n, List.range n⟩ q = q := by
  unfold tip
  simp [hq]

theorem wires_wb (n : ℕ) : WB n ⟨wires n n n, List.range n⟩ where
  good := wires_good n
  len := List.length_range
  alive q hq := by rw [tip_range hq]; exact wires_alive.2 (by omega)
  inj q hq r hr h := by rwa [tip_range hq, tip_range hr] at h
  tips q _ _ a := wires_total n _ a
  inputs := rfl
  outputs := rfl
  out i hi := ⟨wires_alive.2 (by omega), wires_ty n _, fun a => wires_total n _ a, fun q hq => by rw [tip_range hq]; omega⟩

theorem wires_amp (n : ℕ) (ρ : ℕ → ℝ) (β : ℕ → Bool) : amp n ρ ⟨wires n n n, List.range n⟩ β = cyl n β := by
  funext y
  have hin : (wires n n n).inner = ∅ := by
    unfold inner
    apply Finset.filter_false_of_mem
    intro v _ h
    exact h (wires_ty n v)
  have hW : ∀ x, (graph (wires n n n)).W ρ (wires n n n).verts x = 1 := by
    intro x
    unfold Graph.W
    rw [Finset.prod_eq_one, Finset.prod_eq_one, one_mul]
    · intro u _
      apply Finset.prod_eq_one
      intro v _
      unfold Graph.pf
      rw [wires_m, wires_m, pow_zero, pow_zero, one_mul, ite_self]
    · intro v _
      unfold Graph.vf
      split
      · rename_i d hd
        rw [if_neg]
        rintro ⟨h, -⟩
        exact h ((ty_of_vert hd).symm.trans (wires_ty n v))
      · rfl
  unfold amp Diagram.lin
  have hgp : (wires n n n).globalPhase.u ρ = 1 := Phase.u_zero ρ
  simp only [hin, hW, hgp, one_mul]
  unfold sumOver
  rw [Finset.powerset_empty, Finset.sum_singleton]
  unfold cyl
  have h1 : ∀ q ∈ Finset.range n, open1 ⟨wires n n n, List.range n⟩ (fun v => if v ∈ (∅ : Finset ℕ) then decide (v ∈ (∅ : Finset ℕ)) else β v) y q =
      if y q = β q then 1 else 0 := by
    intro q hq
    unfold open1
    rw [tip_range (Finset.mem_range.1 hq)]
    simp only [wires_ty, Finset.notMem_empty, if_false]
    show ew .simple _ _ _ _ = _
    unfold ew odd
    cases β q <;> cases y q <;> rfl
  beta_reduce
  rw [Finset.prod_congr rfl h1]
  by_cases h : ∀ q < n, y q = β q
  · rw [if_pos h]
    apply Finset.prod_eq_one
    intro q hq
    rw [if_pos (h q (Finset.mem_range.1 hq))]
  · rw [if_neg h]
    push Not at h
    obtain ⟨q, hq, hne⟩ := h
    exact Finset.prod_eq_zero (Finset.mem_range.2 hq) (if_neg hne)

/-! ### The outputs -/

/-- After the first `k` outputs have been connected. -/
structure Conn (n : ℕ) (b : Build) (k : ℕ) (D : Diagram) : Prop where
  good : D.Good
  alive : ∀ v, D.Alive v ↔ b.D.Alive v
  ty : ∀ v, (graph D).ty v = (graph b.D).ty v
  inputs : D.inputs = b.D.inputs
  outputs : D.outputs = b.D.outputs
  size : D.size = b.D.size
  outs : ∀ i, k ≤ i → i < n → ∀ a, (graph D).total (n + i) a = 0
  tips : ∀ q, k ≤ q → q < n → (graph D).ty (b.tip q) = .boundary → ∀ a, (graph D).total (b.tip q) a = 0
  lin : ∀ ρ f β, D.lin ρ f β = b.D.lin ρ (fun x => (∏ q ∈ Finset.range k, b.open1 x (fun q => x (n + q)) q) * f x) β

theorem connect_ok {n : ℕ} {b : Build} (h : b.WB n) : ∀ k ≤ n, ∃ D, connect b k = .ok D ∧ Conn n b k D := by
  intro k
  induction k with
  | zero =>
    intro _
    refine ⟨b.D, rfl, h.good, fun _ => Iff.rfl, fun _ => rfl, rfl, rfl, rfl, fun i _ hi => (h.out i hi).2.2.1,
      fun q _ hq => h.tips q hq, fun ρ f β => ?_⟩
    simp
  | succ k ih =>
    intro hk
    obtain ⟨D, e, c⟩ := ih (by omega)
    have hk' : k < n := by omega
    obtain ⟨o1, o2, o3, o4⟩ := h.out k hk'
    have hu : D.Alive (b.tip k) := (c.alive _).2 (h.alive k hk')
    have hv : D.Alive (n + k) := (c.alive _).2 o1
    have hne : b.tip k ≠ n + k := o4 k hk'
    obtain ⟨D1, e1⟩ := addEdge_some c.good.inv hu hv hne .simple
    have s := addEdge_addE c.good.inv hu hv hne e1
    have hvz := c.outs k le_rfl hk'
    refine ⟨D1, ?_, ?_⟩
    · rw [connect, e]
      show (lift b.qs[k]?).bind _ = _
      rw [lift_get h hk']
      show (lift D.outputs[k]?).bind _ = _
      rw [c.outputs, h.outputs]
      have : ((List.range n).map (n + ·))[k]? = some (n + k) := by simp [hk']
      rw [this]
      show lift (D.addEdge _ _ _) = _
      rw [e1]
      rfl
    · have h0 : (graph D).total (b.tip k) (n + k) = 0 := by rw [graph_total_symm c.good.inv]; exact hvz _
      refine ⟨s.good c.good h0 (c.tips k le_rfl hk') (fun _ => hvz) hne, fun v => (s.alive v).trans (c.alive v),
        fun v => (s.ty v).trans (c.ty v), s.inputs.trans c.inputs, s.outputs.trans c.outputs, s.size.trans c.size, ?_, ?_, ?_⟩
      · intro i hi hin a
        rw [s.total, if_neg]
        · exact c.outs i (by omega) hin a
        · rintro (⟨h1, -⟩ | ⟨h1, -⟩)
          · exact (h.out i hin).2.2.2 k hk' h1.symm
          · omega
      · intro q hq hqn hb a
        rw [s.ty] at hb
        rw [s.total, if_neg]
        · exact c.tips q (by omega) hqn hb a
        · rintro (⟨h1, -⟩ | ⟨h1, -⟩)
          · have := h.inj q hqn k hk' h1
            omega
          · exact o4 q hqn h1
      · intro ρ f β
        rw [s.lin c.good.inv hu hv hne, c.lin]
        apply lin_congr
        intro x
        rw [Finset.prod_range_succ, ← mul_assoc]
        unfold open1
        rw [c.ty, c.ty, o2]

theorem conn_val {n : ℕ} {b : Build} (h : b.WB n) {D : Diagram} (c : Conn n b n D) (ρ : ℕ → ℝ) (β : ℕ → Bool) :
    val ρ D β = b.amp n ρ β fun q => β (n + q) := by
  rw [val_eq_lin, c.lin]
  unfold amp Diagram.lin
  congr 1
  apply sumOver_congr_on
  intro x hx
  beta_reduce
  rw [mul_one]
  congr 1
  apply Finset.prod_congr rfl
  intro q hq
  have hb := (h.out q (Finset.mem_range.1 hq)).2.1
  have : x (n + q) = β (n + q) := hx _ fun hm => (Finset.mem_filter.1 hm).2 hb
  unfold open1
  beta_reduce
  rw [this]

/-- What the diagram that `buildFunctionality` returns is. -/
theorem build_spec {n : ℕ} {p : PMap} (hp : Inj p) {ops : List (Op Param)} {D : Diagram} (e : build n p ops = .ok D)
    {os : List (StdOp Param)} (hg : gates ops = some os) (hf : ∀ o ∈ os, Fits o) :
    D.Good ∧ D.inputs = List.range n ∧ D.outputs = (List.range n).map (n + ·) ∧ n + n ≤ D.size ∧
    ∃ (U : (ℕ → ℝ) → State → State) (z : (ℕ → ℝ) → ℂ) (k : ℝ), 0 < k ∧
    (∀ ρ, ∃ os', List.Forall₂ (Reads p ρ) os os' ∧ denoteSeq os' = some (U ρ)) ∧
    (∀ ρ, z ρ ≠ 0) ∧
    ((∀ o ∈ os, Tracked o) → ∀ ρ, ∃ (δ : ℝ) (m : ℤ), |δ| ≤ os.length * (2 * Real.pi / 10 ^ 9) ∧ z ρ = E (δ + m * Real.pi) ∧
      ((∀ o ∈ os, Numeric o) → m = 0)) ∧
    ∀ ρ β, val ρ D β = k * (z ρ * U ρ (cyl n β) fun q => β (n + q)) := by
  unfold build at e
  have h0 := closeGraph_wires (n := n) n 0 (by omega)
  rw [initGraph_eq] at e
  have h1 : (wires n 0 0).inputs = (List.range n).map (0 + ·) := by
    unfold wires
    simp
  rw [h1, h0] at e
  have h2 := cutWires_wires (n := n) n le_rfl
  obtain ⟨D0, e1, e2⟩ := bind_ok e
  injection e1 with e1
  subst e1
  obtain ⟨D1, e3, e4⟩ := bind_ok e2
  rw [h2] at e3
  injection e3 with e3
  subst e3
  obtain ⟨b, e5, e6⟩ := bind_ok e4
  obtain ⟨w, U, z, k, hk, hU, -, hz, ht, ha⟩ := parseL_runs hp ops _ hg hf (wires_wb n) e5
  rw [w.len] at e6
  obtain ⟨D', e7, c⟩ := connect_ok w n le_rfl
  rw [e7] at e6
  injection e6 with e6
  subst e6
  refine ⟨c.good, c.inputs.trans w.inputs, c.outputs.trans w.outputs, ?_, U, z, k, hk, hU, hz, ht, fun ρ β => ?_⟩
  · cases n with
    | zero => omega
    | succ m =>
      have := c.good.inv.lt ((c.alive _).2 (w.out m (by omega)).1)
      omega
  · rw [conn_val w c, ha, wires_amp]
    rfl

end Build

end MQT.ZX
