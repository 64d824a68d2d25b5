import Verif.DataStructures.DirectedGraph
import Mathlib.Logic.Relation
import Mathlib.Order.RelClasses
import Mathlib.Data.Fintype.Card

set_option autoImplicit false

/-
Model of `qc::DirectedAcyclicGraph`
(include/mqt-core/datastructures/DirectedAcyclicGraph.hpp:25-117).
-/
namespace MQT.DAG

set_option linter.unusedSectionVars false

open MQT.DG (G Op)

variable {V : Type} [DecidableEq V] [Inhabited V]

/-- DirectedAcyclicGraph.hpp:25-28: base graph plus transitive-closure matrix. -/
structure D (V : Type) where
  g : G V
  closure : Vec (Vec Bool)

/-- Default constructor. -/
def D.empty : D V := ⟨G.empty, ⟨0, fun _ => ⟨0, fun _ => false⟩⟩⟩

/-- Read of `m[i][j]`; `none` is an out-of-range access. -/
def get2 (c : Vec (Vec Bool)) (i j : Nat) : Option Bool := (c.get? i).bind (·.get? j)

/-- Write `m[i][j] = b`. -/
def set2 (c : Vec (Vec Bool)) (i j : Nat) (b : Bool) : Option (Vec (Vec Bool)) :=
  (c.get? i).bind fun row => (row.set? j b).bind fun row => c.set? i row

/-- DirectedAcyclicGraph.hpp:32-38: state change of `addVertex` for a new vertex. -/
def D.insertVertex (d : D V) (v : V) : Option (D V) :=
  let g := d.g.insertVertex v
  let c := (d.closure.map (fun row => row.push false)).push (Vec.fill g.nVertices false)
  (g.mapping v).bind fun i => (set2 c i i true).map fun c => ⟨g, c⟩

/-- DirectedAcyclicGraph.hpp:31-39: `addVertex`; the base class throws first. -/
def D.addVertex (d : D V) (v : V) : Out (D V) :=
  match d.g.mapping v with
  | some _ => .done d true
  | none => match d.insertVertex v with
    | none => .ub
    | some d => .done d false

/-- DirectedAcyclicGraph.hpp:41-46. -/
def D.ensureVertex (d : D V) (v : V) : Option (D V) :=
  match d.g.mapping v with
  | some _ => some d
  | none => d.insertVertex v

/-- DirectedAcyclicGraph.hpp:55-62: body of the closure update loop for index `k`. -/
def closureBody (i j : Nat) (c : Vec (Vec Bool)) (k : Nat) : Option (Vec (Vec Bool)) := do
  let ki ← get2 c k i
  let c ← if ki then set2 c k j true else some c
  let jk ← get2 c j k
  if jk then set2 c i k true else some c

/-- DirectedAcyclicGraph.hpp:55-62: the closure update loop for `k = 0 .. n-1`. -/
def closureLoop (i j : Nat) (c : Vec (Vec Bool)) (n : Nat) : Option (Vec (Vec Bool)) :=
  (List.range n).foldlM (closureBody i j) c

/-- DirectedAcyclicGraph.hpp:40-63: `addEdge`. The vertices stay even if the call throws. -/
def D.addEdge (d : D V) (u v : V) : Out (D V) :=
  match (d.ensureVertex u).bind (·.ensureVertex v) with
  | none => .ub
  | some d =>
    match d.g.mapping u, d.g.mapping v with
    | some i, some j =>
      match get2 d.closure j i with
      | none => .ub
      | some true => .done d true
      | some false =>
        match d.g.setEdge u v, closureLoop i j d.closure d.g.nVertices with
        | some g, some c => .done ⟨g, c⟩ false
        | _, _ => .ub
    | _, _ => .ub

/-- DirectedAcyclicGraph.hpp:64-72: `isReachable`. -/
def D.isReachable (d : D V) (u v : V) : Res Bool :=
  match d.g.mapping u, d.g.mapping v with
  | some i, some j => match get2 d.closure i j with
    | none => .ub
    | some b => .ok b
  | _, _ => .throw

def D.step (d : D V) : Op V → Out (D V)
  | .addVertex v => d.addVertex v
  | .addEdge u v => d.addEdge u v

/-- Run a history, recording which calls threw (the client catches exceptions and goes on). -/
def D.run (d : D V) (tr : List (Op V × Bool)) : List (Op V) → Option (D V × List (Op V × Bool))
  | [] => some (d, tr)
  | op :: ops => match d.step op with
    | .ub => none
    | .done d b => d.run (tr ++ [(op, b)]) ops

/-- State of the search in `orderTopologically`. -/
structure TState where
  stack : List Nat
  visited : Vec Bool
  vin : Vec Nat

/-- DirectedAcyclicGraph.hpp:86-91: push the vertices without incoming edges. -/
def pushInit (g : G V) (n : Nat) : Option TState :=
  (List.range n).foldlM (fun (s : TState) k => do
    let d ← g.inDegrees.get? k
    if d = 0 then
      let vis ← s.visited.set? k true
      some { s with stack := k :: s.stack, visited := vis }
    else some s) ⟨[], Vec.fill n false, Vec.fill n 0⟩

/-- DirectedAcyclicGraph.hpp:98-107: body of the inner loop for neighbour index `k` of `u`. -/
def topoBody (g : G V) (u : Nat) (s : TState) (k : Nat) : Option TState := do
  let a ← get2 g.adj u k
  if a then
    let vk ← s.visited.get? k
    if !vk then
      let c ← s.vin.get? k
      let vin ← s.vin.set? k (c + 1)
      let d ← g.inDegrees.get? k
      if c + 1 = d then
        let vis ← s.visited.set? k true
        some ⟨k :: s.stack, vis, vin⟩
      else some { s with vin := vin }
    else some s
  else some s

/-- DirectedAcyclicGraph.hpp:93-108: the `while` loop. The first argument is fuel; running out of
fuel is the outcome `none` (like undefined behaviour), so `some` certifies termination. -/
def topoLoop (g : G V) : Nat → TState → List Nat → Option (List Nat)
  | 0, _, _ => none
  | f + 1, s, res =>
    match s.stack with
    | [] => some res
    | u :: st => do
      let s ← (List.range g.nVertices).foldlM (topoBody g u) { s with stack := st }
      topoLoop g f s (res ++ [u])

/-- DirectedAcyclicGraph.hpp:75-115: `orderTopologically`. The `assert` of line 110 is the outcome
`.ub`; `invMapping.at` throws out of range. -/
def D.orderTopologically (d : D V) : Res (List V) :=
  match (pushInit d.g d.g.nVertices).bind fun s => topoLoop d.g (d.g.nVertices + 1) s [] with
  | none => .ub
  | some res =>
    if res.length = d.g.nVertices then
      match res.mapM d.g.invMapping.get? with
      | none => .throw
      | some l => .ok l
    else .ub

/-! ### Lemmas on the matrix operations -/

/-- `c` is an `n × n` matrix. -/
def Square (c : Vec (Vec Bool)) (n : Nat) : Prop := c.size = n ∧ ∀ i < n, (c.at' i).size = n

theorem get2_square {c : Vec (Vec Bool)} {n i j : Nat} (h : Square c n) (hi : i < n) (hj : j < n) :
    get2 c i j = some ((c.at' i).at' j) := by
  simp [get2, Vec.get?, h.1, hi, h.2 i hi, hj]

/-- Functional form of a write. -/
def setM (c : Vec (Vec Bool)) (i j : Nat) (b : Bool) : Vec (Vec Bool) :=
  ⟨c.size, fun k => if k = i then ⟨(c.at' i).size, fun l => if l = j then b else (c.at' i).at' l⟩
    else c.at' k⟩

theorem set2_square {c : Vec (Vec Bool)} {n i j : Nat} (h : Square c n) (hi : i < n) (hj : j < n)
    (b : Bool) : set2 c i j b = some (setM c i j b) := by
  simp [set2, Vec.get?, Vec.set?, h.1, hi, h.2 i hi, hj, setM]

theorem setM_square {c : Vec (Vec Bool)} {n : Nat} (h : Square c n) (i j : Nat) (hi : i < n) (b : Bool) :
    Square (setM c i j b) n := by
  refine ⟨h.1, fun k hk => ?_⟩
  simp only [setM]
  split
  · exact h.2 i hi
  · exact h.2 k hk

theorem setM_at (c : Vec (Vec Bool)) (i j a b : Nat) (x : Bool) :
    ((setM c i j x).at' a).at' b = if a = i ∧ b = j then x else (c.at' a).at' b := by
  simp only [setM]
  by_cases e : a = i
  · subst e; by_cases e2 : b = j <;> simp [e2]
  · simp [e]

theorem closureLoop_spec {c : Vec (Vec Bool)} {n i j : Nat} (h : Square c n) (hi : i < n)
    (hj : j < n) (hij : i ≠ j) (hji : (c.at' j).at' i = false) :
    ∀ m ≤ n, ∃ c', closureLoop i j c m = some c' ∧ Square c' n ∧
      ∀ a b, (c'.at' a).at' b = ((c.at' a).at' b || (decide (a < m) && decide (b = j) && (c.at' a).at' i)
        || (decide (b < m) && decide (a = i) && (c.at' j).at' b)) := by
  intro m
  induction m with
  | zero => intro _; exact ⟨c, by simp [closureLoop], h, by simp⟩
  | succ m ih =>
    intro hm
    obtain ⟨c1, e1, sq1, at1⟩ := ih (by omega)
    have hmn : m < n := by omega
    have hki : (c1.at' m).at' i = (c.at' m).at' i := by
      rw [at1]; by_cases e : m = i
      · subst e; simp [hij]
      · simp [hij, e]
    have hjk : (c1.at' j).at' m = (c.at' j).at' m := by
      rw [at1]; by_cases e : m = j
      · subst e; simp [Ne.symm hij]
      · simp [Ne.symm hij, e]
    have hgoal : closureLoop i j c (m + 1) = closureBody i j c1 m := by
      unfold closureLoop at e1 ⊢
      rw [List.range_succ, List.foldlM_append, e1]
      simp
    rw [hgoal]
    -- after the first conditional write
    have step1 : ∃ c2, (if (c.at' m).at' i = true then set2 c1 m j true else some c1) = some c2 ∧
        Square c2 n ∧ ∀ a b, (c2.at' a).at' b =
          ((c1.at' a).at' b || (decide (a = m) && decide (b = j) && (c.at' m).at' i)) := by
      by_cases hc : (c.at' m).at' i = true
      · refine ⟨setM c1 m j true, by simp [hc, set2_square sq1 hmn hj], setM_square sq1 _ _ hmn _, ?_⟩
        intro a b; rw [setM_at, hc]
        by_cases e1 : a = m <;> by_cases e2 : b = j <;> simp [e1, e2]
      · have hc : (c.at' m).at' i = false := by simpa using hc
        exact ⟨c1, by simp [hc], sq1, by simp [hc]⟩
    obtain ⟨c2, e2, sq2, at2⟩ := step1
    have hjk2 : (c2.at' j).at' m = (c.at' j).at' m := by
      rw [at2, hjk]
      by_cases e : j = m
      · subst e; simp [hji]
      · simp [e]
    have step2 : ∃ c3, (if (c.at' j).at' m = true then set2 c2 i m true else some c2) = some c3 ∧
        Square c3 n ∧ ∀ a b, (c3.at' a).at' b =
          ((c2.at' a).at' b || (decide (a = i) && decide (b = m) && (c.at' j).at' m)) := by
      by_cases hc : (c.at' j).at' m = true
      · refine ⟨setM c2 i m true, by simp [hc, set2_square sq2 hi hmn], setM_square sq2 _ _ hi _, ?_⟩
        intro a b; rw [setM_at, hc]
        by_cases e1 : a = i <;> by_cases e2 : b = m <;> simp [e1, e2]
      · have hc : (c.at' j).at' m = false := by simpa using hc
        exact ⟨c2, by simp [hc], sq2, by simp [hc]⟩
    obtain ⟨c3, e3, sq3, at3⟩ := step2
    refine ⟨c3, ?_, sq3, ?_⟩
    · unfold closureBody
      rw [get2_square sq1 hmn hi, hki]
      have rest : ∀ x, (if (c.at' m).at' i = true then set2 c1 m j true else some c1) = some x →
          ((get2 x j m).bind fun jk => if jk = true then set2 x i m true else some x) = some c3 := by
        intro x hx
        rw [e2] at hx; cases hx
        rw [get2_square sq2 hj hmn, hjk2]
        simpa using e3
      simp only [Option.bind_eq_bind, Option.bind_some]
      split
      · rename_i hc
        rw [if_pos hc] at e2 rest
        rw [e2]; exact rest c2 e2
      · rename_i hc
        rw [if_neg hc] at rest
        exact rest c1 rfl
    · intro a b
      rw [at3, at2, at1]
      have l1 : decide (a < m + 1) = (decide (a < m) || decide (a = m)) := by
        rw [← Bool.decide_or]; congr 1; simp only [eq_iff_iff]; omega
      have l2 : decide (b < m + 1) = (decide (b < m) || decide (b = m)) := by
        rw [← Bool.decide_or]; congr 1; simp only [eq_iff_iff]; omega
      rw [l1, l2]
      by_cases ea : a = m
      · by_cases eb : b = m
        · subst ea; subst eb; simp
        · subst ea; simp [eb]
          cases (c.at' a).at' b <;> cases (c.at' a).at' i <;> cases (c.at' j).at' b <;> simp
          exact Bool.or_comm _ _
      · by_cases eb : b = m
        · subst eb; simp [ea]
        · simp [ea, eb]

/-! ### Invariant -/

/-- Specification: a directed path, possibly empty, of edges of `E`. -/
def Reach (E : Finset (V × V)) (u v : V) : Prop := Relation.ReflTransGen (fun a b => (a, b) ∈ E) u v

structure DInv (d : D V) (Vs : Finset V) (E : Finset (V × V)) : Prop where
  base : DG.Inv d.g Vs E
  sq : Square d.closure d.g.nVertices
  refl : ∀ i < d.g.nVertices, (d.closure.at' i).at' i = true
  sound : ∀ i < d.g.nVertices, ∀ j < d.g.nVertices, (d.closure.at' i).at' j = true →
    Reach E (d.g.invMapping.at' i) (d.g.invMapping.at' j)

/-- The closure matrix is complete. -/
def Complete (d : D V) (E : Finset (V × V)) : Prop :=
  ∀ i < d.g.nVertices, ∀ j < d.g.nVertices,
    Reach E (d.g.invMapping.at' i) (d.g.invMapping.at' j) → (d.closure.at' i).at' j = true

theorem DInv.empty : DInv (D.empty : D V) ∅ ∅ := by
  refine ⟨DG.Inv.empty, ⟨rfl, ?_⟩, ?_, ?_⟩ <;> simp [D.empty, G.empty]

theorem reach_no_in {E : Finset (V × V)} {u v : V} (h : Reach E u v) (hv : ∀ w, (w, v) ∉ E) : u = v := by
  rcases Relation.ReflTransGen.cases_tail h with e | ⟨w, _, hw⟩
  · exact e.symm
  · exact absurd hw (hv w)

theorem reach_no_out {E : Finset (V × V)} {u v : V} (h : Reach E u v) (hu : ∀ w, (u, w) ∉ E) : u = v := by
  rcases Relation.ReflTransGen.cases_head h with e | ⟨w, hw, _⟩
  · exact e
  · exact absurd hw (hu w)

theorem DInv.insertVertex {d : D V} {Vs : Finset V} {E : Finset (V × V)} (h : DInv d Vs E) {v : V}
    (hv : d.g.mapping v = none) :
    ∃ d', d.insertVertex v = some d' ∧ DInv d' (insert v Vs) E ∧ (Complete d E → Complete d' E) := by
  have hb := h.base.insertVertex hv
  have hn : (d.g.insertVertex v).nVertices = d.g.nVertices + 1 := rfl
  have hsq : Square ((d.closure.map (fun row => row.push false)).push
      (Vec.fill (d.g.insertVertex v).nVertices false)) (d.g.nVertices + 1) := by
    constructor
    · simp [Vec.push, Vec.map, h.sq.1]
    · intro i hi
      simp only [Vec.push, Vec.map, Vec.fill, h.sq.1]
      split
      · exact hn
      · simp [h.sq.2 i (by omega)]
  have hat : ∀ a b, a < d.g.nVertices + 1 → b < d.g.nVertices + 1 →
      ((((d.closure.map (fun row => row.push false)).push
      (Vec.fill (d.g.insertVertex v).nVertices false)).at' a).at' b =
      (decide (a < d.g.nVertices) && decide (b < d.g.nVertices) && (d.closure.at' a).at' b)) := by
    intro a b ha hb
    simp only [Vec.push, Vec.map, Vec.fill, h.sq.1]
    by_cases e : a = d.g.nVertices
    · simp [e]
    · rw [if_neg e]
      have e' : a < d.g.nVertices := by omega
      simp only [h.sq.2 a e']
      by_cases e2 : b = d.g.nVertices
      · simp [e2]
      · rw [if_neg e2]
        have : b < d.g.nVertices := by omega
        simp [e', this]
  have hm : (d.g.insertVertex v).mapping v = some d.g.nVertices := by simp [G.insertVertex]
  have hVs : v ∉ Vs := by rw [h.base.verts]; simp [hv]
  have hin : ∀ w, (w, v) ∉ E := fun w hw => hVs (h.base.ends _ hw).2
  have hout : ∀ w, (v, w) ∉ E := fun w hw => hVs (h.base.ends _ hw).1
  have hinv : ∀ a, a < d.g.nVertices → (d.g.insertVertex v).invMapping.at' a = d.g.invMapping.at' a := by
    intro a ha; simp [G.insertVertex, Vec.push, h.base.invSize]; omega
  have hinv' : (d.g.insertVertex v).invMapping.at' d.g.nVertices = v := by
    simp [G.insertVertex, Vec.push, h.base.invSize]
  refine ⟨⟨d.g.insertVertex v, setM ((d.closure.map (fun row => row.push false)).push
      (Vec.fill (d.g.insertVertex v).nVertices false)) d.g.nVertices d.g.nVertices true⟩, ?_, ?_, ?_⟩
  · simp only [D.insertVertex, hm, Option.bind_some]
    rw [set2_square hsq (by omega) (by omega)]
    rfl
  · refine ⟨hb, setM_square hsq _ _ (by omega) _, ?_, ?_⟩
    · intro i hi
      simp only [hn] at hi
      simp only [setM_at]
      split
      · rfl
      · rw [hat i i hi hi]
        have : i < d.g.nVertices := by omega
        simp [this, h.refl i this]
    · intro i hi j hj
      simp only [hn] at hi hj
      simp only [setM_at]
      split
      · rename_i e; rw [e.1, e.2]; intro _; exact .refl
      · rw [hat i j hi hj]
        intro hc
        simp only [Bool.and_eq_true, decide_eq_true_eq] at hc
        rw [hinv i hc.1.1, hinv j hc.1.2]
        exact h.sound i hc.1.1 j hc.1.2 hc.2
  · intro hc i hi j hj hr
    simp only [hn] at hi hj
    simp only [setM_at]
    split
    · rfl
    · rename_i ne
      rw [hat i j hi hj]
      by_cases ei : i = d.g.nVertices
      · subst ei
        simp only [hinv'] at hr
        by_cases ej : j = d.g.nVertices
        · exact absurd ⟨rfl, ej⟩ ne
        · have hj' : j < d.g.nVertices := by omega
          have := reach_no_out hr hout
          simp only [hinv j hj'] at this
          have h2 := h.base.mapInv j hj'
          rw [← this, hv] at h2; cases h2
      · have hi' : i < d.g.nVertices := by omega
        simp only [hinv i hi'] at hr
        by_cases ej : j = d.g.nVertices
        · subst ej
          simp only [hinv'] at hr
          have := reach_no_in hr hin
          have h2 := h.base.mapInv i hi'
          rw [this, hv] at h2; cases h2
        · have hj' : j < d.g.nVertices := by omega
          simp only [hinv j hj'] at hr
          simp [hi', hj', hc i hi' j hj' hr]

theorem DInv.ensureVertex {d : D V} {Vs : Finset V} {E : Finset (V × V)} (h : DInv d Vs E) (v : V) :
    ∃ d', d.ensureVertex v = some d' ∧ DInv d' (insert v Vs) E ∧ (Complete d E → Complete d' E) := by
  unfold D.ensureVertex
  split
  · rename_i i hv
    have : v ∈ Vs := by rw [h.base.verts]; simp [hv]
    exact ⟨d, rfl, by rwa [Finset.insert_eq_of_mem this], id⟩
  · rename_i hv; exact h.insertVertex hv

theorem Reach.insert {E : Finset (V × V)} {a b u v : V} (h : Reach (insert (u, v) E) a b) :
    Reach E a b ∨ (Reach E a u ∧ Reach E v b) := by
  unfold Reach at h ⊢
  induction h with
  | refl => exact Or.inl .refl
  | @tail b c _ hbc ih =>
    rcases Finset.mem_insert.mp hbc with e | hE
    · have e1 : b = u := congrArg Prod.fst e
      have e2 : c = v := congrArg Prod.snd e
      subst e1 e2
      rcases ih with h1 | h1
      · exact Or.inr ⟨h1, .refl⟩
      · exact Or.inr ⟨h1.1, .refl⟩
    · rcases ih with h1 | h1
      · exact Or.inl (h1.tail hE)
      · exact Or.inr ⟨h1.1, h1.2.tail hE⟩

theorem Reach.mono {E E' : Finset (V × V)} (hs : E ⊆ E') {a b : V} (h : Reach E a b) : Reach E' a b :=
  Relation.ReflTransGen.mono (fun _ _ hm => hs hm) _ _ h

/-- `addEdge`: either it throws, and then a path back exists; or the edge is added and the invariant
is kept. Under the side condition it also keeps completeness. -/
theorem DInv.addEdge {d : D V} {Vs : Finset V} {E : Finset (V × V)} (h : DInv d Vs E) (u v : V) :
    ∃ d' b, d.addEdge u v = .done d' b ∧
      DInv d' (insert v (insert u Vs)) (if b then E else insert (u, v) E) ∧
      (b = true → Reach E v u) ∧
      (Complete d E → (b = true ↔ Reach E v u)) ∧
      (Complete d E → ((∀ w, (w, u) ∉ E) ∨ (∀ w, (v, w) ∉ E)) →
        Complete d' (if b then E else insert (u, v) E)) := by
  obtain ⟨d1, e1, i1, c1⟩ := h.ensureVertex u
  obtain ⟨d2, e2, i2, c2⟩ := i1.ensureVertex v
  have hu : u ∈ insert v (insert u Vs) := by simp
  have hv : v ∈ insert v (insert u Vs) := by simp
  obtain ⟨i, hi⟩ := Option.ne_none_iff_exists'.mp ((i2.base.verts u).mp hu)
  obtain ⟨j, hj⟩ := Option.ne_none_iff_exists'.mp ((i2.base.verts v).mp hv)
  obtain ⟨hi1, hi2⟩ := i2.base.mapLt u i hi
  obtain ⟨hj1, hj2⟩ := i2.base.mapLt v j hj
  cases hc : (d2.closure.at' j).at' i with
  | true =>
    have hr : Reach E v u := by
      have := i2.sound j hj1 i hi1 hc
      rwa [hi2, hj2] at this
    refine ⟨d2, true, ?_, ?_, ?_, ?_, ?_⟩
    · simp [D.addEdge, e1, e2, hi, hj, get2_square i2.sq hj1 hi1, hc]
    · simpa using i2
    · intro _; exact hr
    · intro _; simp [hr]
    · intro hcomp _; simpa using c2 (c1 hcomp)
  | false =>
    have hij : i ≠ j := by
      intro e; subst e; rw [i2.refl i hi1] at hc; cases hc
    obtain ⟨g', e3, i3, m3, n3, v3⟩ := i2.base.setEdge hu hv
    obtain ⟨c', e4, s4, a4⟩ := closureLoop_spec i2.sq hi1 hj1 hij hc d2.g.nVertices (Nat.le_refl _)
    refine ⟨⟨g', c'⟩, false, ?_, ?_, ?_, ?_, ?_⟩
    · simp [D.addEdge, e1, e2, hi, hj, get2_square i2.sq hj1 hi1, hc, e3, e4]
    · refine ⟨by simpa using i3, by simpa [n3] using s4, ?_, ?_⟩
      · intro k hk
        simp only [n3] at hk
        simp [a4, i2.refl k hk]
      · intro a ha b hb hab
        simp only [n3] at ha hb
        simp only [v3] at hab ⊢
        rw [a4] at hab
        simp only [ha, hb, decide_true, Bool.true_and, Bool.or_eq_true, Bool.and_eq_true,
          decide_eq_true_eq] at hab
        have sub : E ⊆ insert (u, v) E := Finset.subset_insert _ _
        have edge : Reach (insert (u, v) E) u v := .single (by simp)
        rcases hab with (hab | ⟨hb', hab⟩) | ⟨ha', hab⟩
        · exact (i2.sound a ha b hb hab).mono sub
        · subst hb'
          have := (i2.sound a ha i hi1 hab).mono sub
          rw [hi2] at this; rw [hj2]
          exact this.trans edge
        · subst ha'
          have := (i2.sound j hj1 b hb hab).mono sub
          rw [hj2] at this; rw [hi2]
          exact edge.trans this
    · intro h; cases h
    · intro hcomp
      have hcomp := c2 (c1 hcomp)
      constructor
      · intro h; cases h
      · intro hr
        rw [← hi2, ← hj2] at hr
        rw [hcomp j hj1 i hi1 hr] at hc; cases hc
    · intro hcomp hside
      have hcomp := c2 (c1 hcomp)
      intro a ha b hb hr
      simp only [n3] at ha hb
      simp only [v3] at hr
      show (c'.at' a).at' b = true
      rw [a4]
      simp only [ha, hb, decide_true, Bool.true_and, Bool.or_eq_true, Bool.and_eq_true,
          decide_eq_true_eq]
      have hinj : ∀ x y, x < d2.g.nVertices → y < d2.g.nVertices →
          d2.g.invMapping.at' x = d2.g.invMapping.at' y → x = y := by
        intro x y hx hy e
        have h1 := i2.base.mapInv x hx
        rw [e, i2.base.mapInv y hy] at h1
        exact (Option.some.inj h1).symm
      rcases Reach.insert (by simpa using hr) with hr | ⟨hr1, hr2⟩
      · exact Or.inl (Or.inl (hcomp a ha b hb hr))
      · rcases hside with hs | hs
        · have := reach_no_in hr1 hs
          rw [← hi2] at this
          have := hinj a i ha hi1 this
          subst this
          right
          refine ⟨rfl, hcomp j hj1 b hb ?_⟩
          rwa [hj2]
        · have := reach_no_out hr2 hs
          rw [← hj2] at this
          have := hinj j b hj1 hb this
          subst this
          left; right
          refine ⟨rfl, hcomp a ha i hi1 ?_⟩
          rwa [hi2]

end MQT.DAG
