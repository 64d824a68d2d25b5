/-
Property C91: reordering the operations of a circuit.
-/
import Verif.Opt.ReorderSem
import Verif.Props.OptBlocks

set_option autoImplicit false

namespace MQT.Opt.Reorder

open MQT.IR
open Function (update)

variable {P : Type}

/-- **C91.** Reordering ends, and the new circuit consists of the operations on at least one qubit, each of them once; on every
qubit their order is the one they had.
Missing from C91: classically controlled compound operations (`c91_hidden_ub`); operations without qubits are lost (`c91_drops`). -/
theorem c91_order_partial {f n : ℕ} {ops : List (Op P)} (hf : ops.length < f) (hp : ∀ o ∈ ops, o.plain = true)
    (hn : ∀ o ∈ ops, ∀ q ∈ o.usedQ, q < n) :
    ∃ ops', reorder f n ops = some (.ok ops') ∧ ops'.Perm (ops.filter fun o => decide o.usedQ.Nonempty) ∧
      ∀ q, ops'.filter (fun o => decide (q ∈ o.usedQ)) = ops.filter fun o => decide (q ∈ o.usedQ) := by
  obtain ⟨l, e, hnd, hm, ho⟩ := reorder_spec hf hp hn
  have hfil : ∀ (p : Op P → Bool) (l : List ℕ), (pick ops l).filter p = pick ops (l.filter fun i => (ops[i]?).any p) := by
    intro p l
    induction l with
    | nil => rfl
    | cons i l ih =>
      simp only [pick, List.filterMap_cons, List.filter_cons] at ih ⊢
      cases h : ops[i]? with
      | none => simpa using ih
      | some o =>
        simp only [List.filter_cons, Option.any_some]
        by_cases hp : p o = true
        · simp [hp, h, ih]
        · simp [hp, ih]
  refine ⟨_, e, ?_, fun q => ?_⟩
  · have h1 : ops.filter (fun o => decide o.usedQ.Nonempty) =
        pick ops ((List.range ops.length).filter fun i => (ops[i]?).any fun o => decide o.usedQ.Nonempty) := by
      rw [← hfil, pick_range]
    rw [h1]
    refine List.Perm.filterMap _ ?_
    refine (List.perm_ext_iff_of_nodup hnd (List.nodup_range.filter _)).2 fun i => ?_
    rw [hm, List.mem_filter, List.mem_range, used]
    cases h : ops[i]? with
    | none => simp
    | some o => simp
  · have h1 : ops.filter (fun o => decide (q ∈ o.usedQ)) =
        pick ops ((List.range ops.length).filter fun i => (ops[i]?).any fun o => decide (q ∈ o.usedQ)) := by
      rw [← hfil, pick_range]
    rw [h1, hfil]
    congr 1
    have hmem : ∀ i, ((ops[i]?).any fun o => decide (q ∈ o.usedQ)) = true ↔ q ∈ used ops i := by
      intro i
      rw [used]
      cases h : ops[i]? with
      | none => simp
      | some o => simp
    refine List.Perm.eq_of_pairwise (le := (· < ·)) (fun a b _ _ h1 h2 => absurd h1 (by omega)) ?_ (List.pairwise_lt_range.filter _) ?_
    · refine List.Pairwise.imp_of_mem ?_ (ho.filter _)
      intro i j hi hj h
      rcases h with h | h
      · exact absurd ((hmem j).1 (List.mem_filter.1 hj).2) (Finset.disjoint_left.1 h ((hmem i).1 (List.mem_filter.1 hi).2))
      · exact h
    · refine (List.perm_ext_iff_of_nodup (hnd.filter _) (List.nodup_range.filter _)).2 fun i => ?_
      rw [List.mem_filter, List.mem_filter, hm, List.mem_range, hmem]
      exact ⟨fun h => ⟨h.1.1, h.2⟩, fun h => ⟨⟨h.1, q, h.2⟩, h.2⟩⟩

/-- **C91.** A qubit that the circuit does not have is reported. -/
theorem c91_throws {f n : ℕ} {ops : List (Op P)} (h : ∃ o ∈ ops, ∃ q ∈ o.usedQ, n ≤ q) : reorder f n ops = some .throw := by
  have key : ∀ (l : List (Op P)) (i : ℕ) (dag : ℕ → List ℕ), (∃ o ∈ l, ∃ q ∈ o.usedQ, n ≤ q) → fill n i l dag = .throw := by
    intro l
    induction l with
    | nil => rintro i dag ⟨o, ho, -⟩; cases ho
    | cons a l ih =>
      rintro i dag ⟨o, ho, q, hq, hn⟩
      rw [fill]
      split_ifs with hc
      · rcases List.mem_cons.1 ho with rfl | ho
        · exact absurd (hc q hq) (by omega)
        · exact ih _ _ ⟨o, ho, q, hq, hn⟩
      · rfl
  rw [reorder, key ops 0 _ h]

/-- **C91.** Reordering keeps the meaning, up to the order in which outcomes are drawn, if operations on different qubits share no
classical bit that one of them writes.
Missing from C91: the other circuits (`c91_classical_fails`, `c91_drops`, `c91_hidden_ub`). -/
theorem c91_meaning_partial {f n : ℕ} {ops : List (Op ℝ)} (hf : ops.length < f) (hs : ∀ o ∈ ops, simple o = true) (hv : ∀ o ∈ ops, o.Valid)
    (hn : ∀ o ∈ ops, o.usedQ.Nonempty ∧ ∀ q ∈ o.usedQ, q < n) (hc : ops.Pairwise fun a b => Disjoint a.acts b.acts → NoClash a b) :
    ∃ ops', reorder f n ops = some (.ok ops') ∧ ∃ σ : Equiv.Perm ℕ, ∀ c : Cfg, run ops' c = run ops { c with orc := c.orc ∘ σ } := by
  obtain ⟨l, e, hnd, hm, ho⟩ := reorder_spec hf (fun o h => simple_plain o (hs o h)) fun o h => (hn o h).2
  refine ⟨_, e, sim_pick hs hv hc ?_ ho⟩
  refine (List.perm_ext_iff_of_nodup hnd List.nodup_range).2 fun i => ?_
  rw [hm, List.mem_range]
  refine ⟨fun h => h.1, fun h => ⟨h, ?_⟩⟩
  rw [used_of (List.getElem?_eq_getElem h)]
  exact (hn _ (List.getElem_mem h)).1

mutual
theorem unitary_facts (o : Op P) (h : Defer.unitary o = true) : simple o = true ∧ writes o = ∅ ∧ ∀ W, Blind W o := by
  match o with
  | .std _ => exact ⟨rfl, rfl, fun _ => by rw [Blind]; trivial⟩
  | .compound l _ =>
    rw [Defer.unitary] at h
    obtain ⟨h1, h2, h3⟩ := unitary_factsL l h
    exact ⟨by rw [simple]; exact h1, by rw [writes]; exact h2, fun W => by rw [Blind]; exact h3 W⟩
  | .measure _ _ => exact absurd h (by simp [Defer.unitary])
  | .reset _ => exact absurd h (by simp [Defer.unitary])
  | .classic _ _ => exact absurd h (by simp [Defer.unitary])
theorem unitary_factsL (l : List (Op P)) (h : Defer.unitaryL l = true) : simpleL l = true ∧ writesL l = ∅ ∧ ∀ W, BlindL W l := by
  match l with
  | [] => exact ⟨rfl, rfl, fun _ => by rw [BlindL]; trivial⟩
  | o :: l =>
    rw [Defer.unitaryL, Bool.and_eq_true] at h
    obtain ⟨h1, h2, h3⟩ := unitary_facts o h.1
    obtain ⟨k1, k2, k3⟩ := unitary_factsL l h.2
    exact ⟨by rw [simpleL, h1, k1]; rfl, by rw [writesL, h2, k2]; rfl, fun W => by rw [BlindL]; exact ⟨h3 W, k3 W⟩⟩
end

/-- **C91.** A circuit of gates keeps its meaning exactly.
Missing from C91: measurements, resets and conditions. -/
theorem c91_unitary_partial {f n : ℕ} {ops : List (Op ℝ)} (hf : ops.length < f) (hu : ∀ o ∈ ops, Defer.unitary o = true) (hv : ∀ o ∈ ops, o.Valid)
    (hn : ∀ o ∈ ops, o.usedQ.Nonempty ∧ ∀ q ∈ o.usedQ, q < n) : ∃ ops', reorder f n ops = some (.ok ops') ∧ run ops' = run ops := by
  have hs : ∀ o ∈ ops, simple o = true := fun o h => (unitary_facts o (hu o h)).1
  have hc : ops.Pairwise fun a b => Disjoint a.acts b.acts → NoClash a b := by
    refine List.pairwise_of_forall_mem_list fun a ha b hb _ => ?_
    obtain ⟨-, h1, h2⟩ := unitary_facts a (hu a ha)
    obtain ⟨-, k1, k2⟩ := unitary_facts b (hu b hb)
    exact ⟨by rw [h1]; exact Finset.disjoint_empty_left _, k2 _, h2 _⟩
  obtain ⟨ops', e, σ, h⟩ := c91_meaning_partial hf hs hv hn hc
  obtain ⟨ops'', e', hp, -⟩ := c91_order_partial (n := n) hf (fun o h => simple_plain o (hs o h)) fun o h => (hn o h).2
  rw [e] at e'
  injection e' with e'
  injection e' with e'
  subst e'
  refine ⟨ops', e, ?_⟩
  obtain ⟨F, hF⟩ := Defer.run_unitary ops ((Blocks.unitaryL_iff ops).2 hu)
  obtain ⟨G, hG⟩ := Defer.run_unitary ops' ((Blocks.unitaryL_iff ops').2 fun o ho => hu o (List.mem_filter.1 (hp.mem_iff.1 ho)).1)
  funext c
  have hc := h c
  rw [hG, hF] at hc
  rw [hG, hF]
  simp only at hc
  cases h1 : G c.st <;> cases h2 : F c.st <;> rw [h1, h2] at hc
  · cases hc
  · cases hc
  · simp only [Option.map_some, Option.some.injEq, Cfg.mk.injEq] at hc
    rw [hc.1]

/-! ### Wrong results -/

/-- A measurement, and a gate on another qubit that depends on its result. -/
def teleport : List (Op ℝ) := [.measure [0] [0], .classic (fun m => m 0) (gate .x [1])]

/-- **C91 fails:** conditions are not respected. The gate is moved before the measurement it depends on. -/
theorem c91_classical_fails : reorder 3 2 teleport = some (.ok [.classic (fun m => m 0) (gate .x [1]), .measure [0] [0]]) ∧
    ¬ ∃ σ : Equiv.Perm ℕ, ∀ c : Cfg, run [.classic (fun m => m 0) (gate .x [1]), .measure [0] [0]] c = run teleport { c with orc := c.orc ∘ σ } := by
  refine ⟨rfl, ?_⟩
  rintro ⟨σ, h⟩
  have hx : ∀ c : Cfg, exec (.classic (fun m => m 0) (gate .x [1])) c =
      some (if c.mem 0 then c.mapSt (app1 (mat1 0 1 1 0) 1) else c) := by
    intro c
    rw [exec]
    by_cases hm : c.mem 0 = true
    · simp only [hm, if_true]
      rw [gate1_exec (M := mat1 0 1 1 0) rfl rfl]
    · simp only [hm, Bool.false_eq_true, if_false]
  have hm : ∀ c : Cfg, exec (.measure [0] [0]) c = some (measure1 0 0 c) := fun c => by rw [exec]; rfl
  -- qubit 0 is one, so is every outcome; the bit is zero at the beginning
  have h1 := h ⟨basisAt [(0, true), (1, false)], fun _ => false, fun _ => true⟩
  rw [teleport, run_cons, hx, Option.bind_some, run_singleton, hm, run_cons, hm, Option.bind_some, run_singleton, hx] at h1
  injection h1 with h1
  have h2 := congrFun (congrArg Cfg.st h1) (bitsAt [0])
  simp [measure1, Cfg.mapSt, basisAt, bitsAt, app1, mat1, projM] at h2

/-- **C91 fails:** operations without qubits are dropped, among them all classically controlled compound operations. -/
theorem c91_drops : reorder 2 1 [.classic (fun m => m 0) (.compound [gate .x [0]] false)] = some (.ok ([] : List (Op ℝ))) ∧
    run [.classic (fun m => m 0) (.compound [gate .x [0]] false)] ≠ run [] := by
  refine ⟨rfl, fun h => ?_⟩
  have h1 := congrFun h ⟨basisAt [(0, false)], fun _ => true, fun _ => false⟩
  rw [run_singleton, exec] at h1
  simp only [if_true] at h1
  rw [run_compound, run_singleton, gate1_exec (M := mat1 0 1 1 0) rfl rfl, run_nil] at h1
  injection h1 with h1
  have h2 := congrFun (congrArg Cfg.st h1) (bitsAt [])
  simp [Cfg.mapSt, basisAt, bitsAt, flip_app] at h2

/-- **C91 fails:** inside another compound operation they make the pass look at the end of an empty list. -/
theorem c91_hidden_ub : reorder 5 2 [.compound [gate .x [0], .classic (fun m => m 0) (.compound [gate .x [1]] false)] false] =
    some (.ub : MQT.Res (List (Op ℝ))) := rfl

/-- The circuit with which `collectBlocks` fails (`Blocks.c90_meaning_fails`) is not changed by `reorderOperations`, which
`collectBlocks` calls first. -/
theorem chain_reorder : reorder 4 3 (Blocks.chain : List (Op ℝ)) = some (.ok Blocks.chain) := rfl

/-- Gates move forward on the higher qubits. -/
example : reorder 6 3 ([gate .h [0], cxOp 0 1, gate .x [2], .measure [0] [0], gate .t [2]] : List (Op ℚ)) =
    some (.ok [gate .x [2], gate .h [0], gate .t [2], cxOp 0 1, .measure [0] [0]]) := rfl

/-- A circuit to which `c91_meaning_partial` applies: two measurements into different bits are exchanged. -/
example : reorder 5 2 ([gate .h [0], .measure [0] [0], .measure [1] [1], .classic (fun m => m 0) (gate .x [0])] : List (Op ℝ)) =
    some (.ok [.measure [1] [1], gate .h [0], .measure [0] [0], .classic (fun m => m 0) (gate .x [0])]) ∧
    ([gate .h [0], .measure [0] [0], .measure [1] [1], .classic (fun m => m 0) (gate .x [0])] : List (Op ℝ)).Pairwise
      fun a b => Disjoint a.acts b.acts → NoClash a b := by
  refine ⟨rfl, ?_⟩
  simp only [List.pairwise_cons, List.mem_cons, List.not_mem_nil, or_false, forall_eq_or_imp, forall_eq, NoClash, gate, writes, Blind,
    Op.acts, StdOp.used]
  simp

end MQT.Opt.Reorder
