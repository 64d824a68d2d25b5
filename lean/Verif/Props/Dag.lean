import Verif.DataStructures.Topo
import Verif.Props.DirectedGraph

set_option autoImplicit false

/-! C03 (DAG reachability and cycle rejection) and C04 (topological order). -/

namespace MQT.DAG

set_option linter.unusedSectionVars false

open MQT.DG (G Op verticesOf)

variable {V : Type} [DecidableEq V] [Inhabited V]

/-- Specification: the edges whose `addEdge` call did not throw. -/
def accepted : List (Op V × Bool) → Finset (V × V)
  | [] => ∅
  | (.addEdge u v, false) :: tr => insert (u, v) (accepted tr)
  | _ :: tr => accepted tr

theorem accepted_append (a b : List (Op V × Bool)) : accepted (a ++ b) = accepted a ∪ accepted b := by
  induction a with
  | nil => simp [accepted]
  | cons x a ih =>
    rcases x with ⟨op, t⟩
    cases op <;> cases t <;> simp [accepted, ih, Finset.insert_union]

theorem verticesOf_append (a b : List (Op V)) : verticesOf (a ++ b) = verticesOf a ∪ verticesOf b := by
  induction a with
  | nil => simp [verticesOf]
  | cons x a ih => cases x <;> simp [verticesOf, ih, Finset.insert_union]

/-- Every edge is added when its source has no incoming edge or its target no outgoing edge. -/
def Tame (tr : List (Op V × Bool)) : Prop :=
  ∀ pre u v post b, tr = pre ++ (Op.addEdge u v, b) :: post →
    (∀ w, (w, u) ∉ accepted pre) ∨ (∀ w, (v, w) ∉ accepted pre)

/-- A call throws only if the edge would close a cycle. -/
def ThrowsSound (tr : List (Op V × Bool)) : Prop :=
  ∀ pre u v post, tr = pre ++ (Op.addEdge u v, true) :: post → Reach (accepted pre) v u

/-- A call throws exactly if the edge would close a cycle. -/
def ThrowsExact (tr : List (Op V × Bool)) : Prop :=
  ∀ pre u v post b, tr = pre ++ (Op.addEdge u v, b) :: post → (b = true ↔ Reach (accepted pre) v u)

theorem snoc_split {α : Type} {tr pre post : List α} {x y : α} (e : tr ++ [x] = pre ++ y :: post) :
    (tr = pre ∧ x = y ∧ post = []) ∨ ∃ post', tr = pre ++ y :: post' ∧ post = post' ++ [x] := by
  rcases List.eq_nil_or_concat post with hr | ⟨post', z, hr⟩
  · subst hr
    obtain ⟨e1, e2⟩ := List.append_inj' e rfl
    exact Or.inl ⟨e1, by simpa using e2, rfl⟩
  · subst hr
    have e' : tr ++ [x] = (pre ++ y :: post') ++ [z] := by simpa using e
    obtain ⟨e1, e2⟩ := List.append_inj' e' rfl
    have : x = z := by simpa using e2
    subst this
    exact Or.inr ⟨post', e1, by simp⟩

theorem Tame.prefix {tr : List (Op V × Bool)} {x} (h : Tame (tr ++ [x])) : Tame tr := by
  intro pre u v post b e
  exact h pre u v (post ++ [x]) b (by simp [e])

/-- Everything that is maintained along a run. -/
structure RunInv (d : D V) (tr : List (Op V × Bool)) : Prop where
  inv : DInv d (verticesOf (tr.map (·.1))) (accepted tr)
  throws : ThrowsSound tr
  tame : Tame tr → Complete d (accepted tr) ∧ ThrowsExact tr

theorem step_inv {d : D V} {tr : List (Op V × Bool)} (h : RunInv d tr) (op : Op V) :
    ∃ d' b, d.step op = .done d' b ∧ RunInv d' (tr ++ [(op, b)]) := by
  cases op with
  | addVertex v =>
    have key : ∃ d' b, d.addVertex v = .done d' b ∧
        DInv d' (insert v (verticesOf (tr.map (·.1)))) (accepted tr) ∧
        (Complete d (accepted tr) → Complete d' (accepted tr)) := by
      unfold D.addVertex
      split
      · rename_i i hv
        have : v ∈ verticesOf (tr.map (·.1)) := by rw [h.inv.base.verts]; simp [hv]
        exact ⟨d, true, rfl, by rw [Finset.insert_eq_of_mem this]; exact h.inv, id⟩
      · rename_i hv
        obtain ⟨d', e, i, c⟩ := h.inv.insertVertex hv
        exact ⟨d', false, by rw [e], i, c⟩
    obtain ⟨d', b, e, i, c⟩ := key
    have hacc : accepted (tr ++ [(Op.addVertex v, b)]) = accepted tr := by
      rw [accepted_append]; cases b <;> simp [accepted]
    refine ⟨d', b, e, ⟨?_, ?_, ?_⟩⟩
    · rw [hacc]
      simpa [verticesOf_append, verticesOf, Finset.union_insert] using i
    · intro pre u w post e
      rcases snoc_split e with ⟨_, e2, _⟩ | ⟨post', e2, _⟩
      · cases e2
      · exact h.throws pre u w post' e2
    · intro ht
      obtain ⟨c1, c2⟩ := h.tame ht.prefix
      refine ⟨by rw [hacc]; exact c c1, ?_⟩
      intro pre u w post b' e
      rcases snoc_split e with ⟨_, e2, _⟩ | ⟨post', e2, _⟩
      · cases e2
      · exact c2 pre u w post' b' e2
  | addEdge u v =>
    obtain ⟨d', b, e, i, t1, t2, c⟩ := h.inv.addEdge u v
    have hacc : accepted (tr ++ [(Op.addEdge u v, b)]) =
        if b then accepted tr else insert (u, v) (accepted tr) := by
      rw [accepted_append]; cases b <;> simp [accepted, Finset.union_insert]
    refine ⟨d', b, e, ⟨?_, ?_, ?_⟩⟩
    · rw [hacc]
      have e2 : verticesOf ((tr ++ [(Op.addEdge u v, b)]).map (·.1)) =
          insert v (insert u (verticesOf (tr.map (·.1)))) := by
        simp [verticesOf_append, verticesOf, Finset.union_insert, Finset.insert_comm]
      rw [e2]; exact i
    · intro pre u' w post e
      rcases snoc_split e with ⟨e1, e2, _⟩ | ⟨post', e2, _⟩
      · cases e2; subst e1; exact t1 rfl
      · exact h.throws pre u' w post' e2
    · intro ht
      obtain ⟨c1, c2⟩ := h.tame ht.prefix
      have hside := ht tr u v [] b rfl
      refine ⟨by rw [hacc]; exact c c1 hside, ?_⟩
      intro pre u' w post b' e
      rcases snoc_split e with ⟨e1, e2, _⟩ | ⟨post', e2, _⟩
      · cases e2; subst e1; exact t2 c1
      · exact c2 pre u' w post' b' e2

theorem run_inv (h : List (Op V)) : ∀ (d : D V) (tr : List (Op V × Bool)), RunInv d tr →
    ∃ d' tr', d.run tr h = some (d', tr') ∧ tr'.map (·.1) = tr.map (·.1) ++ h ∧ RunInv d' tr' := by
  induction h with
  | nil => intro d tr hi; exact ⟨d, tr, rfl, by simp, hi⟩
  | cons op h ih =>
    intro d tr hi
    obtain ⟨d1, b, e1, i1⟩ := step_inv hi op
    obtain ⟨d2, tr2, e2, m2, i2⟩ := ih d1 _ i1
    exact ⟨d2, tr2, by simp [D.run, e1, e2], by simp [m2], i2⟩

theorem RunInv.empty : RunInv (D.empty : D V) [] := by
  refine ⟨DInv.empty, ?_, ?_⟩
  · intro pre u v post e; simp at e
  · intro _
    refine ⟨?_, ?_⟩
    · intro i hi; simp [D.empty, G.empty] at hi
    · intro pre u v post b e; simp at e

theorem isReachable_eq {d : D V} {Vs : Finset V} {E : Finset (V × V)} (h : DInv d Vs E) (u v : V) :
    (¬ (u ∈ Vs ∧ v ∈ Vs) ∧ d.isReachable u v = .throw) ∨
    (u ∈ Vs ∧ v ∈ Vs ∧ ∃ i j, i < d.g.nVertices ∧ j < d.g.nVertices ∧ d.g.invMapping.at' i = u ∧
      d.g.invMapping.at' j = v ∧ d.isReachable u v = .ok ((d.closure.at' i).at' j)) := by
  unfold D.isReachable
  cases hu : d.g.mapping u with
  | none => left; simp [h.base.verts, hu]
  | some i =>
    cases hv : d.g.mapping v with
    | none => left; simp [h.base.verts, hv]
    | some j =>
      right
      obtain ⟨hi1, hi2⟩ := h.base.mapLt u i hu
      obtain ⟨hj1, hj2⟩ := h.base.mapLt v j hv
      refine ⟨by simp [h.base.verts, hu], by simp [h.base.verts, hv], i, j, hi1, hj1, hi2, hj2, ?_⟩
      simp [get2_square h.sq hi1 hj1]

/-- **C03, part 1 (holds for every history).** No call runs into undefined behaviour;
`isReachable u v` answers `true` only if a path of accepted edges exists; `addEdge` throws only if
the edge would close a cycle; unknown vertices throw.
Full statement of C03: additionally "if a path exists, `isReachable` answers true" and "every edge
closing a cycle is rejected" for every history. That is false, see `c03_not_complete` below; the
next theorem gives the histories for which it holds. -/
theorem c03_reachability_sound_partial (h : List (Op V)) :
    ∃ d tr, (D.empty : D V).run [] h = some (d, tr) ∧ tr.map (·.1) = h ∧ ThrowsSound tr ∧
      (∀ u v, d.isReachable u v = .ok true → Reach (accepted tr) u v) ∧
      (∀ u v, d.isReachable u v ≠ .ub ∧
        (d.isReachable u v = .throw ↔ ¬ (u ∈ verticesOf h ∧ v ∈ verticesOf h))) := by
  obtain ⟨d, tr, e, m, i⟩ := run_inv h D.empty [] RunInv.empty
  have m : tr.map (·.1) = h := by simpa using m
  refine ⟨d, tr, e, m, i.throws, ?_, ?_⟩
  · intro u v hr
    rcases isReachable_eq i.inv u v with ⟨_, e⟩ | ⟨_, _, a, b, ha, hb, ea, eb, e⟩
    · rw [e] at hr; cases hr
    · rw [e] at hr
      have := i.inv.sound a ha b hb (by simpa using hr)
      rwa [ea, eb] at this
  · intro u v
    have ii := i.inv
    rw [m] at ii
    rcases isReachable_eq ii u v with ⟨hn, e⟩ | ⟨hu, hv, a, b, ha, hb, ea, eb, e⟩
    · rw [e]; simp [hn]
    · rw [e]; simp [hu, hv]

/-- **C03, part 2.** For every history in which each edge is added while its source has no incoming
or its target no outgoing accepted edge, reachability and cycle rejection are exact.
Missing from the full C03: histories that join two non-trivial paths in the middle. -/
theorem c03_reachability_exact_partial (h : List (Op V)) :
    ∃ d tr, (D.empty : D V).run [] h = some (d, tr) ∧ tr.map (·.1) = h ∧
      (Tame tr → ThrowsExact tr ∧
        ∀ u v, u ∈ verticesOf h → v ∈ verticesOf h →
          (d.isReachable u v = .ok true ∧ Reach (accepted tr) u v ∨
           d.isReachable u v = .ok false ∧ ¬ Reach (accepted tr) u v)) := by
  obtain ⟨d, tr, e, m, i⟩ := run_inv h D.empty [] RunInv.empty
  have m : tr.map (·.1) = h := by simpa using m
  refine ⟨d, tr, e, m, fun ht => ?_⟩
  obtain ⟨c1, c2⟩ := i.tame ht
  refine ⟨c2, ?_⟩
  intro u v hu hv
  have ii := i.inv
  rw [m] at ii
  rcases isReachable_eq ii u v with ⟨hn, e⟩ | ⟨_, _, a, b, ha, hb, ea, eb, e⟩
  · exact absurd ⟨hu, hv⟩ hn
  · rw [e]
    cases hc : (d.closure.at' a).at' b with
    | true =>
      left
      have := ii.sound a ha b hb hc
      rw [ea, eb] at this
      exact ⟨rfl, this⟩
    | false =>
      right
      refine ⟨rfl, fun hr => ?_⟩
      rw [← ea, ← eb] at hr
      rw [c1 a ha b hb hr] at hc; cases hc

/-- A tame history with a rejected edge: chain 1→2→3, then 3→1 is rejected, 1 reaches 3. -/
example :
    ((D.empty : D Nat).run [] [.addEdge 1 2, .addEdge 2 3, .addEdge 3 1]).map
      (fun (d, tr) => (tr.map (·.2), d.isReachable 1 3, d.isReachable 3 1)) =
    some ([false, false, true], .ok true, .ok false) := by decide

/-- **The full C03 is false.** After `addEdge(1,2); addEdge(3,4); addEdge(2,3)` there is a path
1→2→3→4 but `isReachable(1,4)` is false, and `addEdge(4,1)`, which closes a cycle, is accepted
(DirectedAcyclicGraph.hpp:55-62 updates only the row of the source and the column of the target). -/
theorem c03_not_complete :
    ((D.empty : D Nat).run [] [.addEdge 1 2, .addEdge 3 4, .addEdge 2 3]).map
      (fun (d, tr) => (tr.map (·.2), d.isReachable 1 4)) = some ([false, false, false], .ok false) ∧
    ((D.empty : D Nat).run [] [.addEdge 1 2, .addEdge 3 4, .addEdge 2 3, .addEdge 4 1]).map
      (fun (_, tr) => tr.map (·.2)) = some [false, false, false, false] := by decide

/-- The graph that `c03_not_complete` builds contains a cycle. -/
theorem c03_cycle_accepted :
    ¬ Acyclic (accepted [(Op.addEdge 1 2, false), (Op.addEdge 3 4, false), (Op.addEdge 2 3, false),
      (Op.addEdge 4 1, false)]) := by
  intro h
  apply h 1
  refine .tail (.tail (.tail (.single (b := 2) ?_) (c := 3) ?_) (c := 4) ?_) ?_ <;> simp [accepted]

/-- **C04.** For every history whose accepted edges form an acyclic graph, `orderTopologically`
terminates normally, lists every vertex exactly once, and lists `u` before `v` for every edge. -/
theorem c04_topological_order (h : List (Op V)) :
    ∃ d tr, (D.empty : D V).run [] h = some (d, tr) ∧ tr.map (·.1) = h ∧
      (Acyclic (accepted tr) →
        ∃ l, d.orderTopologically = .ok l ∧ l.Nodup ∧ (∀ v, v ∈ l ↔ v ∈ verticesOf h) ∧
          ∀ u v, (u, v) ∈ accepted tr → ∀ l1 l2, l = l1 ++ v :: l2 → u ∈ l1) := by
  obtain ⟨d, tr, e, m, i⟩ := run_inv h D.empty [] RunInv.empty
  have m : tr.map (·.1) = h := by simpa using m
  refine ⟨d, tr, e, m, fun hac => ?_⟩
  have ii := i.inv.base
  rw [m] at ii
  exact orderTopologically_spec ii hac

theorem transGen_insert_self {E : Finset (V × V)} {u v w : V}
    (h : Relation.TransGen (fun a b => (a, b) ∈ insert (u, v) E) w w)
    (hE : Acyclic E) : Reach E v u := by
  have key : ∀ a b, Relation.TransGen (fun a b => (a, b) ∈ insert (u, v) E) a b →
      Relation.TransGen (fun a b => (a, b) ∈ E) a b ∨ (Reach E a u ∧ Reach E v b) := by
    intro a b hab
    induction hab with
    | single hb =>
      rcases Finset.mem_insert.mp hb with e | hb
      · cases e; exact Or.inr ⟨.refl, .refl⟩
      · exact Or.inl (.single hb)
    | tail _ hbc ih =>
      rcases Finset.mem_insert.mp hbc with e | hbc
      · cases e
        rcases ih with h1 | h1
        · exact Or.inr ⟨h1.to_reflTransGen, .refl⟩
        · exact Or.inr ⟨h1.1, .refl⟩
      · rcases ih with h1 | h1
        · exact Or.inl (h1.tail hbc)
        · exact Or.inr ⟨h1.1, h1.2.tail hbc⟩
  rcases key w w h with h1 | ⟨h1, h2⟩
  · exact absurd h1 (hE w)
  · exact h2.trans h1

/-- If every cycle-closing edge was rejected then the accepted graph is acyclic. -/
theorem acyclic_of_throwsExact : ∀ (tr : List (Op V × Bool)), ThrowsExact tr → Acyclic (accepted tr) := by
  intro tr
  induction tr using List.reverseRecOn with
  | nil =>
    intro _ v hv
    cases hv with
    | single h => simp [accepted] at h
    | tail _ h => simp [accepted] at h
  | append_singleton tr x ih =>
    intro ht
    have ih := ih (fun pre u v post b e => ht pre u v (post ++ [x]) b (by simp [e]))
    rw [accepted_append]
    rcases x with ⟨op, b⟩
    cases op with
    | addVertex v => cases b <;> simpa [accepted] using ih
    | addEdge u v =>
      cases b with
      | true => simpa [accepted] using ih
      | false =>
        have hx := ht tr u v [] false rfl
        intro w hw
        have : accepted tr ∪ accepted [(Op.addEdge u v, false)] = insert (u, v) (accepted tr) := by
          simp [accepted, Finset.union_insert]
        rw [this] at hw
        have := hx.mpr (transGen_insert_self hw ih)
        cases this

/-- **C04 without an acyclicity hypothesis**, for the histories of C03 part 2. -/
theorem c04_topological_order_tame (h : List (Op V)) :
    ∃ d tr, (D.empty : D V).run [] h = some (d, tr) ∧ tr.map (·.1) = h ∧
      (Tame tr → ∃ l, d.orderTopologically = .ok l ∧ l.Nodup ∧ (∀ v, v ∈ l ↔ v ∈ verticesOf h) ∧
          ∀ u v, (u, v) ∈ accepted tr → ∀ l1 l2, l = l1 ++ v :: l2 → u ∈ l1) := by
  obtain ⟨d, tr, e, m, i⟩ := run_inv h D.empty [] RunInv.empty
  have m : tr.map (·.1) = h := by simpa using m
  refine ⟨d, tr, e, m, fun ht => ?_⟩
  have ii := i.inv.base
  rw [m] at ii
  exact orderTopologically_spec ii (acyclic_of_throwsExact tr (i.tame ht).2)

/-- A diamond with an isolated vertex: all five vertices are listed, in a topological order. -/
example :
    ((D.empty : D Nat).run [] [.addEdge 1 2, .addEdge 1 3, .addEdge 2 4, .addEdge 3 4, .addVertex 9]).map
      (fun (d, _) => d.orderTopologically) = some (.ok [9, 1, 3, 2, 4]) := by decide

/-- On the cyclic graph that the API accepts, the assertion of line 110 fails. -/
example :
    ((D.empty : D Nat).run [] [.addEdge 1 2, .addEdge 3 4, .addEdge 2 3, .addEdge 4 1]).map
      (fun (d, _) => d.orderTopologically) = some .ub := by decide

end MQT.DAG
