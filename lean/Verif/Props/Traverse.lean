/-
C100: serialisation round-trips.  C101: transfer to another package.
-/
import Verif.DD.Traverse

set_option autoImplicit false

noncomputable section

open Classical

namespace MQT.DD

/-! ### C100 -/

/-- **C100.** A vector that is not a terminal is read back as it was, from both formats: the loop ends, whatever the number of
steps allowed beyond some bound.  Missing from C100: terminals (`c100_terminal`). -/
theorem c100_vector_partial (binary : Bool) {n : ℕ} {e : VEdge} (he : VECan n e) (hp : e.p ≠ .term) :
    ∃ k file, (∀ f, serializeV binary (k + f) e = some file) ∧ deserialize makeV file = e :=
  serializeV_spec binary he hp

/-- **C100.** A matrix that is not a multiple of the identity is read back as it was.  Missing from C100: terminals
(`c100_terminal`). -/
theorem c100_matrix_partial (binary : Bool) {n : ℕ} {e : MEdge} (he : MECan n e) (hp : e.p ≠ .term) :
    deserialize makeM (serializeM binary e) = e :=
  serializeM_spec binary he hp

/-- **C100** fails for terminals: any multiple of the identity is read back as the zero matrix, and a state without qubits as
zero. -/
theorem c100_terminal (binary : Bool) (z : ℂ) (k : ℕ) :
    deserialize makeM (serializeM binary ⟨.term, z⟩) = .zero ∧
    ∃ file, serializeV binary k ⟨.term, z⟩ = some file ∧ deserialize makeV file = .zero := by
  refine ⟨?_, (z, []), ?_, ?_⟩
  · simp [deserialize, serializeM, serM, Edge.zero]
  · simp [serializeV]
  · simp [deserialize, Edge.zero]

/-- The matrix `X` on qubit 0. -/
def xNode : MNode := .node 0 (fun i => if i.1 = i.2 then 0 else 1) fun _ => .term

/-- `|0⟩⟨0|` on qubit 0. -/
def p0Node : MNode := .node 0 (fun i => if i = (false, false) then 1 else 0) fun _ => .term

/-- The blocks `0`, `X`, `X` and `|0⟩⟨0|`. -/
def blocks : MNode := .node 1 (fun i => if i = (false, false) then 0 else 1) fun i =>
  if i = (false, false) then .term else if i = (true, true) then p0Node else xNode

theorem xNode_can : MCan 1 xNode := by
  refine ⟨by omega, ?_, ?_, fun b => ⟨fun _ => rfl, fun _ => trivial⟩⟩
  · simp [mtop, marg, margStep, rcs]
  · rintro ⟨-, h, -⟩
    simp at h

theorem p0Node_can : MCan 1 p0Node := by
  refine ⟨by omega, ?_, ?_, fun b => ⟨fun _ => rfl, fun _ => trivial⟩⟩
  · simp [mtop, marg, margStep, rcs]
  · rintro ⟨-, -, -, -, h⟩
    simp at h

theorem blocks_can : MCan 2 blocks := by
  refine ⟨by omega, ?_, ?_, fun b => ⟨fun h => ?_, fun h => ?_⟩⟩
  · simp [mtop, marg, margStep, rcs]
  · rintro ⟨-, h, -⟩
    simp at h
  · simp at h
    simp [h]
  · dsimp only
    split_ifs
    · trivial
    · exact p0Node_can
    · exact xNode_can

theorem xNode_ne : xNode ≠ p0Node := by
  intro h
  injection h with _ h
  have := congrFun h (false, false)
  simp at this

/-- Three nodes are written for the blocks, `X` once, and read back. -/
example : deserialize makeM (serializeM true ⟨blocks, Complex.I⟩) = ⟨blocks, Complex.I⟩ ∧
    (serializeM true ⟨blocks, Complex.I⟩).2.length = 3 := by
  refine ⟨c100_matrix_partial true (n := 2) ⟨fun h => absurd h Complex.I_ne_zero, fun _ => blocks_can⟩ (by simp [blocks]), ?_⟩
  have leaf : ∀ (w : RC → ℂ) (st : List MNode × Ser RC), (serM true (.node 0 w fun _ => .term) st).1 =
      (if .term ∈ st.1 then st.1 else .term :: st.1) ∧
      (serM true (.node 0 w fun _ => .term) st).2.lines.length = st.2.lines.length + 1 := by
    intro w st
    by_cases h : Node.term ∈ st.1 <;> simp [serM, rcs, h]
  have hx := leaf (fun i => if i.1 = i.2 then 0 else 1)
  have h0 := leaf (fun i => if i = (false, false) then 1 else 0)
  rw [← xNode] at hx
  rw [← p0Node] at h0
  have h3 := xNode_ne
  have h1 : xNode ≠ .term := by simp [xNode]
  have h2 : p0Node ≠ .term := by simp [p0Node]
  have ht : ∀ st, serM true .term st = st := fun st => by rw [serM]
  simp only [serializeM, blocks, serM, rcs, List.foldl_cons, List.foldl_nil, List.length_append]
  simp [hx, h0, ht, h1, h2, h3.symm]

/-! ### C101 -/

/-- **C101.** Transferring a state of at least three qubits gives the same state.  Missing from C101: states of one or two
qubits, and matrices (`c101_empty_stack`, `c101_matrix`). -/
theorem c101_vector_partial {n : ℕ} {e : VEdge} (he : VECan n e) (hn : 3 ≤ n) : ∃ k, ∀ f, transferV (k + f) e = some e :=
  transferV_spec he hn

/-- **C101** fails for `|1⟩`: the top of the empty stack is read. -/
theorem c101_empty_stack (k : ℕ) : transferV k ⟨.node 0 (fun b => if b then 1 else 0) fun _ => .term, 1⟩ = none ∧
    VECan 1 (⟨.node 0 (fun b => if b then 1 else 0) fun _ => .term, 1⟩ : VEdge) := by
  constructor
  · match k with
    | 0 => simp [transferV, transfer, Walk.run]
    | 1 => simp [transferV, transfer, Walk.run]
    | k + 2 => simp [transferV, transfer, Walk.run, traWalk, Walk.child, find]
  · refine ⟨fun h => absurd h one_ne_zero, fun _ => ⟨rfl, ?_, fun b => ⟨fun _ => rfl, fun _ => rfl⟩⟩⟩
    simp [vtop, varg]

/-- **C101** fails for matrices: of the blocks `0`, `X`, `X` and `|0⟩⟨0|` the last one becomes the identity. -/
theorem c101_matrix : (∀ k, transferM (k + 20) ⟨blocks, 1⟩ = some (makeM 1 fun i =>
      if i = (false, false) then .zero else if i = (true, true) then .one else ⟨xNode, 1⟩)) ∧
    (makeM 1 fun i => if i = (false, false) then .zero else if i = (true, true) then .one else (⟨xNode, 1⟩ : MEdge)) ≠ ⟨blocks, 1⟩ := by
  have nx : xNode ≠ .term := by simp [xNode]
  have np : p0Node ≠ .term := by simp [p0Node]
  have nxp := xNode_ne
  have nbx : blocks ≠ xNode := by simp [blocks, xNode]
  have nbp : blocks ≠ p0Node := by simp [blocks, p0Node]
  have mx : makeM 0 (fun i => ⟨.term, if i.1 = i.2 then 0 else 1⟩) = (⟨xNode, 1⟩ : MEdge) :=
    makeM_self xNode_can.2.1 xNode_can.2.2.1 fun _ _ => rfl
  constructor
  · intro k
    set W := traWalk makeM (false, false) [(false, true), (true, false), (true, true)] with hW
    set r := makeM 1 fun i => if i = (false, false) then .zero else if i = (true, true) then .one else (⟨xNode, 1⟩ : MEdge) with hr
    have hk : ∀ s p, W.known s p = (find s.mapped p).isSome := fun _ _ => rfl
    have ho : W.others = [(false, true), (true, false), (true, true)] := rfl
    have hf : W.first = (false, false) := rfl
    have hs : W.strict = true := rfl
    have ex : W.emit ⟨[], .zero⟩ xNode = ⟨[(xNode, xNode)], ⟨xNode, 1⟩⟩ := by
      have : (copyEdges (fun i : RC => if i.1 = i.2 then (0 : ℂ) else 1) (fun _ => .term)
          [(false, false), (false, true), (true, false), (true, true)] []) =
          (([] : List (MNode × MNode)), fun i => ⟨.term, if i.1 = i.2 then 0 else 1⟩) := by
        simp only [copyEdges, if_true]
        congr 1
        funext ⟨a, b⟩
        cases a <;> cases b <;> simp
      simp only [hW, traWalk, xNode, emitCopy, this, mx]
    have eb : W.emit ⟨[(xNode, xNode)], ⟨xNode, 1⟩⟩ blocks = ⟨[(blocks, r.p), (p0Node, .term), (xNode, xNode)], r⟩ := by
      have : (copyEdges (fun i : RC => if i = (false, false) then (0 : ℂ) else 1)
          (fun i => if i = (false, false) then .term else if i = (true, true) then p0Node else xNode)
          [(false, false), (false, true), (true, false), (true, true)] [(xNode, xNode)]) =
          ([(p0Node, .term), (xNode, xNode)],
            fun i => if i = (false, false) then .zero else if i = (true, true) then .one else (⟨xNode, 1⟩ : MEdge)) := by
        simp [copyEdges, nx, np, mappedAt, find, nxp]
        funext ⟨a, b⟩
        cases a <;> cases b <;> simp [Edge.zero, Edge.one]
      simp only [hW, traWalk, blocks, emitCopy, this, ← hr]
    have s1 : W.run (k + 20) ⟨blocks, [], ⟨[], .zero⟩⟩ = W.run (k + 19) ⟨.term, [blocks, xNode, xNode, p0Node], ⟨[], .zero⟩⟩ := by
      rw [blocks, Walk.run_node, ho, hf]
      simp [hk, find, nx, np]
    have s2 : W.run (k + 19) ⟨.term, [blocks, xNode, xNode, p0Node], ⟨[], .zero⟩⟩ =
        W.run (k + 18) ⟨xNode, [blocks, xNode, p0Node], ⟨[], .zero⟩⟩ := by
      rw [blocks, Walk.run, ho]
      simp [Walk.child, hk, find]
    have s3 : W.run (k + 18) ⟨xNode, [blocks, xNode, p0Node], ⟨[], .zero⟩⟩ =
        W.run (k + 17) ⟨.term, [xNode, blocks, xNode, p0Node], ⟨[], .zero⟩⟩ := by
      rw [xNode, Walk.run_node, ho]
      simp
    have s4 : W.run (k + 17) ⟨.term, [xNode, blocks, xNode, p0Node], ⟨[], .zero⟩⟩ =
        W.run (k + 16) ⟨.term, [blocks, xNode, p0Node], ⟨[(xNode, xNode)], ⟨xNode, 1⟩⟩⟩ := by
      rw [← ex, xNode, Walk.run, ho]
      simp [Walk.child, hk, find, blocks]
    have s5 : W.run (k + 16) ⟨.term, [blocks, xNode, p0Node], ⟨[(xNode, xNode)], ⟨xNode, 1⟩⟩⟩ =
        W.run (k + 15) ⟨.term, [xNode, p0Node], ⟨[(blocks, r.p), (p0Node, .term), (xNode, xNode)], r⟩⟩ := by
      have hkx : W.known ⟨[(xNode, xNode)], ⟨xNode, 1⟩⟩ xNode = true := by simp [hk, find]
      have hkp : W.known ⟨[(xNode, xNode)], ⟨xNode, 1⟩⟩ p0Node = false := by simp [hk, find, nxp]
      have hkb : W.known ⟨[(xNode, xNode)], ⟨xNode, 1⟩⟩ blocks = false := by simp [hk, find, nbx.symm]
      have hc : W.child ⟨[(xNode, xNode)], ⟨xNode, 1⟩⟩ [xNode, p0Node] (fun i => if i = (false, false) then 0 else 1)
          (fun i => if i = (false, false) then .term else if i = (true, true) then p0Node else xNode) W.others = some false := by
        rw [ho]
        simp [Walk.child, hkx, hkp, nxp.symm]
      rw [← eb]
      conv_lhs => unfold blocks
      rw [Walk.run]
      simp only [hc]
      exact if_neg (by rw [← blocks, hkb]; simp)
    have s6 : W.run (k + 15) ⟨.term, [xNode, p0Node], ⟨[(blocks, r.p), (p0Node, .term), (xNode, xNode)], r⟩⟩ =
        W.run (k + 14) ⟨.term, [p0Node], ⟨[(blocks, r.p), (p0Node, .term), (xNode, xNode)], r⟩⟩ := by
      have hkx : W.known ⟨[(blocks, r.p), (p0Node, .term), (xNode, xNode)], r⟩ xNode = true := by
        simp [hk, find, nbx, nxp.symm]
      have hkt : W.known ⟨[(blocks, r.p), (p0Node, .term), (xNode, xNode)], r⟩ .term = false := by
        simp [hk, find, nx, np, blocks]
      conv_lhs => rw [show [xNode, p0Node] = [.node 0 (fun i => if i.1 = i.2 then 0 else 1) (fun _ => .term), p0Node] from rfl, Walk.run, ho]
      simp [Walk.child, hkt, np.symm]
      intro h
      rw [← xNode, hkx] at h
      cases h
    have s7 : W.run (k + 14) ⟨.term, [p0Node], ⟨[(blocks, r.p), (p0Node, .term), (xNode, xNode)], r⟩⟩ =
        W.run (k + 13) ⟨.term, [], ⟨[(blocks, r.p), (p0Node, .term), (xNode, xNode)], r⟩⟩ := by
      have hkx : W.known ⟨[(blocks, r.p), (p0Node, .term), (xNode, xNode)], r⟩ p0Node = true := by
        simp [hk, find, nbp]
      conv_lhs => rw [show [p0Node] = [.node 0 (fun i => if i = (false, false) then 1 else 0) (fun _ => .term)] from rfl, Walk.run, ho]
      simp [Walk.child]
      intro h
      rw [← p0Node, hkx] at h
      cases h
    rw [transferM, transfer, if_neg (by simp [blocks]), ← hW]
    simp only [s1, s2, s3, s4, s5, s6, s7]
    simp [Walk.run]
  · intro h
    have hm : mtop (fun i : RC => if i = (false, false) then (0 : ℂ) else 1) = 1 := blocks_can.2.1
    have : (makeM 1 fun i => if i = (false, false) then .zero else if i = (true, true) then .one else (⟨xNode, 1⟩ : MEdge)) =
        ⟨.node 1 (fun i => if i = (false, false) then 0 else 1)
          (fun i => if i = (false, false) then .term else if i = (true, true) then .term else xNode), 1⟩ := by
      rw [← makeM_self hm ?_ ?_]
      · congr 1
        funext ⟨a, b⟩
        cases a <;> cases b <;> simp [Edge.zero, Edge.one]
      · rintro ⟨-, h, -⟩
        simp at h
      · intro b hb
        simp at hb
        simp [hb]
    rw [this] at h
    have h1 := congrArg Edge.p h
    simp only [blocks] at h1
    injection h1 with _ _ h2
    have := congrFun h2 (true, true)
    simp at this
    exact np this.symm

end MQT.DD
