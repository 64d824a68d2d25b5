/-
`CircuitOptimizer::cancelCNOTs` (`src/circuit_optimizer/CircuitOptimizer.cpp` 992-1151).
-/
import Verif.Opt.SwapReconstruction

set_option autoImplicit false
set_option linter.unusedSectionVars false

namespace MQT.Opt

open MQT.IR
open Function (update)

/-- The targets of an uncontrolled SWAP. -/
def swap? {P : Type} : Op P → Option (ℕ × ℕ)
  | .std o =>
    if o.type = .swap ∧ o.controls.card = 0 then
      match o.targets with
      | a :: b :: _ => some (a, b)
      | _ => none
    else none
  | _ => none

/-- `isCNOT`/`isSWAP` with `q0`, `q1` (1002-1018): for a SWAP `(true, targets[0], targets[1])`, for a
CNOT `(false, target, control)`. -/
def pairGate {P : Type} (e : Op P) : Option (Bool × ℕ × ℕ) :=
  match cnot? e with
  | some (c, t) => some (false, t, c)
  | none => (swap? e).map fun p => (true, p.1, p.2)

/-- Turn the operations at `i` and `k` into identities and take `i` off both lists. -/
def killPair {P : Type} (S : PassState P) (i k q0 q1 : ℕ) (r0 r1 : List ℕ) : PassState P :=
  { ops := (S.ops.modify i kill).modify k kill, dag := update (update S.dag q0 r0) q1 r1 }

/-- The rewriting part of the loop body (1045-1147), once the current operation `it` at `k` and
the last operation on both qubits, at `i`, are known to be CNOTs or SWAPs. -/
def cancelRewrite {P : Type} (n : ℕ) (S : PassState P) (k i : ℕ) (it : Op P) (r0 r1 : List ℕ)
    (isSwap prevSwap : Bool) (q0 q1 p0 p1 : ℕ) : Option (PassState P) :=
  match isSwap, prevSwap with
  | false, false =>
    if q0 = p0 ∧ q1 = p1 then some (killPair S i k q0 q1 r0 r1)
    else match r0, r1 with
      | a :: _, b :: _ =>
        if a ≠ b then S.add n k it.usedQ
        else match S.ops[a]?.bind cnot? with
          | none => S.add n k it.usedQ
          | some (c2, t2) =>
            if q0 = t2 ∧ q1 = c2 then
              let S1 : PassState P :=
                { ops := S.ops.modify a (retype .swap (if p0 > p1 then [p1, p0] else [p0, p1]) ∅)
                  dag := S.dag }
              some (killPair S1 i k q0 q1 r0 r1)
            else S.add n k it.usedQ
      | _, _ => S.add n k it.usedQ
  | true, true =>
    if (insert q0 {q1} : Finset ℕ) = insert p0 {p1} then some (killPair S i k q0 q1 r0 r1)
    else S.add n k it.usedQ
  | false, true =>
    PassState.add n
      { ops := (S.ops.modify i (retype .x [q0] {(q1, true)})).modify k (retype .x [q1] {(q0, true)})
        dag := S.dag } k {q0, q1}
  | true, false =>
    PassState.add n
      { ops := (S.ops.modify i (retype .x [p1] {(p0, true)})).modify k (retype .x [p0] {(p1, true)})
        dag := S.dag } k {p1, p0}

/-- One iteration of the loop (995-1148) for the operation at position `k`; `none` = exception. -/
def cancelStep {P : Type} (n : ℕ) (S : PassState P) (k : ℕ) : Option (PassState P) :=
  match S.ops[k]? with
  | none => none
  | some it =>
    match pairGate it with
    | none => S.add n k it.usedQ
    | some (isSwap, q0, q1) =>
      if n ≤ q0 ∨ n ≤ q1 then none
      else match S.dag q0, S.dag q1 with
      | i :: r0, j :: r1 =>
        if i ≠ j then S.add n k it.usedQ
        else match S.ops[i]?.bind pairGate with
          | none => S.add n k it.usedQ
          | some (prevSwap, p0, p1) => cancelRewrite n S k i it r0 r1 isSwap prevSwap q0 q1 p0 p1
      | _, _ => S.add n k it.usedQ

/-- The whole pass. -/
def cancelCNOTs {P : Type} (n : ℕ) (ops : List (Op P)) : Option (List (Op P)) :=
  ((List.range ops.length).foldlM (cancelStep n) { ops := ops, dag := fun _ => [] }).map fun S =>
    removeIdentities S.ops

/-! ### Correctness -/

/-- The meaning of a recognised gate. -/
def pairMap : Bool → ℕ → ℕ → Bits → Bits
  | false, t, c => cxMap c t
  | true, a, b => swapMap a b

/-- What a valid recognised gate looks like. -/
structure IsPair (e : Op ℝ) (sw : Bool) (q0 q1 : ℕ) (s : StdOp ℝ) : Prop where
  eq : e = .std s
  ne : q0 ≠ q1
  used : s.used = {q0, q1}
  den : s.denote = some (pull (pairMap sw q0 q1))
  ty : s.type ≠ .i
  tsub : ∀ q ∈ s.targets, q = q0 ∨ q = q1

theorem pairGate_valid {e : Op ℝ} {sw : Bool} {q0 q1 : ℕ} (h : pairGate e = some (sw, q0, q1))
    (hv : e.type ≠ .i → e.Valid) : ∃ s, IsPair e sw q0 q1 s := by
  rw [pairGate] at h
  cases hc : cnot? e with
  | some p =>
    obtain ⟨c, t⟩ := p
    rw [hc] at h
    simp only [Option.some.injEq, Prod.mk.injEq] at h
    obtain ⟨rfl, rfl, rfl⟩ := h
    have hti : e.type ≠ .i := by
      obtain ⟨o, rfl, ht, -⟩ := cnot?_eq_some hc
      rw [Op.type, ht]; decide
    obtain ⟨s, rfl, h1, h2, h3, hct⟩ := cnot?_valid hc (hv hti)
    exact ⟨s, rfl, hct.symm, by rw [used_cx h2 h3, Finset.pair_comm], cnot_denote h1 h2 h3,
      by rw [h1]; decide, by rw [h3]; simp⟩
  | none =>
    rw [hc] at h
    obtain ⟨p, hp, h⟩ := Option.map_eq_some_iff.1 h
    simp only [Prod.mk.injEq] at h
    obtain ⟨rfl, rfl, rfl⟩ := h
    match e, hp with
    | .std o, hp =>
      rw [swap?] at hp
      split_ifs at hp with g
      obtain ⟨g1, g2⟩ := g
      rw [Finset.card_eq_zero] at g2
      have hti : (Op.std o).type ≠ .i := by rw [Op.type, g1]; decide
      have hv' := hv hti
      rw [Op.Valid] at hv'
      obtain ⟨wf, f, hf⟩ := hv'
      rcases StdOp.denote_cases hf with ⟨hb, -⟩ | ⟨hg, -⟩ | ⟨hs, -⟩ | ⟨h2', a, b, M, e1, -, -⟩
      · rw [g1] at hb; cases hb
      · rw [g1] at hg; cases hg
      · rw [g1] at hs; exact absurd hs (by decide)
      · rw [e1] at hp
        simp only [Option.some.injEq] at hp
        subst hp
        refine ⟨o, rfl, ?_, used_swap g2 e1, swap_denote g1 g2 e1, hti, ?_⟩
        · have := wf.nodup
          rw [e1] at this
          simpa using this
        · rw [e1]; simp

theorem cx_swap_eq_cx_cx {a b : ℕ} (h : a ≠ b) (x : Bits) :
    cxMap a b (swapMap a b x) = cxMap b a (cxMap a b x) := by
  funext q
  unfold swapMap cxMap
  simp only [Function.update_apply]
  have h' := h.symm
  by_cases q1 : q = a <;> by_cases q2 : q = b <;> simp_all <;> cases x a <;> cases x b <;> rfl

theorem pairMap_pairMap {sw : Bool} {q0 q1 : ℕ} (h : q0 ≠ q1) (x : Bits) :
    pairMap sw q0 q1 (pairMap sw q0 q1 x) = x := by
  cases sw
  · exact cxMap_cxMap h.symm x
  · exact swapMap_swapMap h x

theorem eqv_of_pull {s1 s2 n1 n2 : StdOp ℝ} {g1 g2 g1' g2' : Bits → Bits}
    (h1 : s1.denote = some (pull g1)) (h2 : s2.denote = some (pull g2))
    (k1 : n1.denote = some (pull g1')) (k2 : n2.denote = some (pull g2'))
    (t1 : s1.type ≠ .i) (t2 : s2.type ≠ .i) (u1 : n1.type ≠ .i) (u2 : n2.type ≠ .i)
    (h : ∀ x, g1 (g2 x) = g1' (g2' x)) : Eqv [.std s1, .std s2] [.std n1, .std n2] := by
  unfold Eqv
  rw [strip_live t1, strip_live t2, strip_live u1, strip_live u2]
  funext cfg
  have e0 := run_pull_cons h1 (run_pull_cons h2 run_pull_nil) cfg
  have e1 := run_pull_cons k1 (run_pull_cons k2 run_pull_nil) cfg
  simp only [h] at e0
  rw [show strip ([] : List (Op ℝ)) = [] from rfl, e0, e1]

theorem eqv_cancel {s1 s2 n1 n2 : StdOp ℝ} {g1 g2 : Bits → Bits}
    (h1 : s1.denote = some (pull g1)) (h2 : s2.denote = some (pull g2))
    (t1 : s1.type ≠ .i) (t2 : s2.type ≠ .i) (u1 : n1.type = .i) (u2 : n2.type = .i)
    (h : ∀ x, g1 (g2 x) = x) : Eqv [.std s1, .std s2] [.std n1, .std n2] := by
  unfold Eqv
  rw [strip_live t1, strip_live t2, strip_dead u1, strip_dead u2]
  funext cfg
  have e0 := run_pull_cons h1 (run_pull_cons h2 run_pull_nil) cfg
  simp only [h] at e0
  rw [show strip ([] : List (Op ℝ)) = [] from rfl, e0, run_pull_nil]

theorem opOk_kill {n : ℕ} {s : StdOp ℝ} (hr : ∀ q ∈ s.used, q < n) : OpOk n (kill (.std s)) := by
  refine opOk_std (fun h' => absurd rfl h') fun q hq => hr q ?_
  rw [StdOp.mem_used] at hq ⊢
  simp only [ctrlQubits, Finset.image_empty, Finset.notMem_empty, or_false] at hq
  exact Or.inl hq

/-- Turning the last operation on both qubits and the current one into identities. -/
theorem PassInv.killPair {n k : ℕ} {ops0 : List (Op ℝ)} {S : PassState ℝ} (h : PassInv n ops0 S k)
    {q0 q1 i : ℕ} {r0 r1 : List ℕ} (d0 : S.dag q0 = i :: r0) (d1 : S.dag q1 = i :: r1)
    {s1 s2 : StdOp ℝ} (hi : S.ops[i]? = some (.std s1)) (hk : S.ops[k]? = some (.std s2))
    (us : s1.used = {q0, q1})
    (he : Eqv ops0 ((S.ops.set i (kill (.std s1))).set k (kill (.std s2)))) :
    PassInv n ops0 (killPair S i k q0 q1 r0 r1) (k + 1) := by
  have hik : i < k := (h.dag.sound q0 i (by rw [d0]; simp)).1
  have hkl : k < S.ops.length := (List.getElem?_eq_some_iff.1 hk).1
  have e1 := modify_eq_set (f := kill) hi
  have e2 : (S.ops.set i (kill (.std s1))).modify k kill =
      (S.ops.set i (kill (.std s1))).set k (kill (.std s2)) :=
    modify_eq_set (by rw [List.getElem?_set_ne (by omega)]; exact hk)
  have ho1 := (h.ok _ (List.mem_of_getElem? hi)).range
  have ho2 := (h.ok _ (List.mem_of_getElem? hk)).range
  rw [Op.usedQ] at ho1 ho2
  unfold MQT.Opt.killPair
  rw [e1, e2]
  refine ⟨by simp [h.len], ?_, ok_set (ok_set h.ok (opOk_kill ho1)) (opOk_kill ho2), he⟩
  refine DagInv.skip (o := kill (.std s2)) ?_ ?_ rfl
  · exact (h.dag.kill hi (by rw [Op.usedQ, us]) d0 d1 rfl).set_current _
  · rw [List.getElem?_set_self (by simpa using hkl)]

/-- Replacing the last operation on both qubits and the current one by others on these qubits. -/
theorem PassInv.replacePair {n k : ℕ} {ops0 : List (Op ℝ)} {S : PassState ℝ}
    (h : PassInv n ops0 S k) {q0 q1 i : ℕ} {r0 r1 : List ℕ} (d0 : S.dag q0 = i :: r0)
    (d1 : S.dag q1 = i :: r1) {s1 s2 n1 n2 : StdOp ℝ} (hi : S.ops[i]? = some (.std s1))
    (hk : S.ops[k]? = some (.std s2)) (us : s1.used = {q0, q1}) (ts : s1.type ≠ .i)
    (us2 : On {q0, q1} s2) (un1 : n1.used = {q0, q1}) (un2 : n2.used = {q0, q1})
    (v1 : (Op.std n1).Valid) (v2 : (Op.std n2).Valid)
    {f g : Op ℝ → Op ℝ} (hf : f (.std s1) = .std n1) (hg : g (.std s2) = .std n2)
    {Q : Finset ℕ} (hQ : Q = {q0, q1})
    (he : Eqv [.std s1, .std s2] [.std n1, .std n2]) :
    ∃ S', PassState.add n { S with ops := (S.ops.modify i f).modify k g } k Q = some S' ∧
      PassInv n ops0 S' (k + 1) := by
  subst hQ
  have hik : i < k := (h.dag.sound q0 i (by rw [d0]; simp)).1
  have hkl : k < S.ops.length := (List.getElem?_eq_some_iff.1 hk).1
  have e1 := modify_eq_set (f := f) hi
  have e2 : (S.ops.set i (f (.std s1))).modify k g = (S.ops.set i (f (.std s1))).set k (g (.std s2)) :=
    modify_eq_set (by rw [List.getElem?_set_ne (by omega)]; exact hk)
  rw [e1, e2, hf, hg]
  have ho1 := (h.ok _ (List.mem_of_getElem? hi)).range
  rw [Op.usedQ, us] at ho1
  have inv : PassInv n ops0 { S with ops := (S.ops.set i (.std n1)).set k (.std n2) } k := by
    refine ⟨by simp [h.len], ?_, ok_set (ok_set h.ok ?_) ?_, ?_⟩
    · exact (h.dag.set_same hi (o' := .std n1) (by rw [Op.usedQ, Op.usedQ, un1, us]) ts).set_current _
    · exact opOk_std (fun _ => v1) (by rw [un1]; exact ho1)
    · exact opOk_std (fun _ => v2) (by rw [un2]; exact ho1)
    · rw [Op.Valid] at v2
      obtain ⟨-, f2, hf2⟩ := v2
      exact h.pair d0 d1 hi hk us2 (on_of hf2 un2) he
  have := inv.add (e := .std n2) (by
    simp only
    rw [List.getElem?_set_self (by simpa using hkl)])
  rwa [Op.usedQ, un2] at this

/-- Three operations become a SWAP. -/
theorem PassInv.triple {n k : ℕ} {ops0 : List (Op ℝ)} {S : PassState ℝ} (h : PassInv n ops0 S k)
    {u v i m : ℕ} {lu lv : List ℕ} (du : S.dag u = m :: i :: lu) (dv : S.dag v = m :: i :: lv)
    {s1 s2 s3 n1 n2 n3 : StdOp ℝ} (hi : S.ops[i]? = some (.std s1)) (hm : S.ops[m]? = some (.std s2))
    (hk : S.ops[k]? = some (.std s3))
    (h2 : On {u, v} s2) (k2 : On {u, v} n2) (h3 : On {u, v} s3) (k3 : On {u, v} n3)
    (he : Eqv [.std s1, .std s2, .std s3] [.std n1, .std n2, .std n3]) :
    Eqv ops0 (((S.ops.set i (.std n1)).set m (.std n2)).set k (.std n3)) := by
  refine h.sem.trans ?_
  have hmk : m < k := (h.dag.sound u m (by rw [du]; simp)).1
  have him : i < m := by
    have := h.dag.sorted u
    rw [du] at this
    exact (List.pairwise_cons.1 this).1 i (by simp)
  obtain ⟨A, B, R, e, hA, hB⟩ := split_two him hi hm
  have hR : R[k - m - 1]? = some (.std s3) := by
    rw [e, List.getElem?_append_right (by omega), hA] at hk
    obtain ⟨x, hx⟩ : ∃ x, k - i = x + 1 := ⟨k - i - 1, by omega⟩
    rw [hx, List.getElem?_cons_succ, List.getElem?_append_right (by omega)] at hk
    obtain ⟨y, hy⟩ : ∃ y, x - B.length = y + 1 := ⟨x - B.length - 1, by omega⟩
    rw [hy, List.getElem?_cons_succ] at hk
    have : k - m - 1 = y := by omega
    rw [this]; exact hk
  obtain ⟨C, R', rfl, hC⟩ := split_at hR
  have havB : ∀ e' ∈ B, Avoids {u, v} e' := by
    intro e' he'
    obtain ⟨j, j1, j2, j3⟩ := mem_between (A := A) (R := C ++ .std s3 :: R') (a := Op.std s1)
      (b := Op.std s2) he'
    rw [← e] at j3
    exact h.avoids' du dv (by omega) (by omega) j3
  have havC : ∀ e' ∈ C, Avoids {u, v} e' := by
    intro e' he'
    obtain ⟨j, j1, j2, j3⟩ := mem_between (A := A ++ .std s1 :: B) (R := R') (a := Op.std s2)
      (b := Op.std s3) he'
    have e2 : A ++ .std s1 :: B ++ .std s2 :: (C ++ .std s3 :: R') = S.ops := by rw [e]; simp
    rw [e2] at j3
    simp only [List.length_append, List.length_cons] at j1 j2
    exact h.avoids du dv (by omega) (by omega) j3
  rw [e, set_two hA him hB]
  have e3 : (A ++ .std n1 :: (B ++ .std n2 :: (C ++ .std s3 :: R')) : List (Op ℝ)) =
      (A ++ .std n1 :: B ++ .std n2 :: C) ++ .std s3 :: R' := by simp
  have e4 : (A ++ .std n1 :: (B ++ .std n2 :: (C ++ .std n3 :: R')) : List (Op ℝ)) =
      (A ++ .std n1 :: B ++ .std n2 :: C) ++ .std n3 :: R' := by simp
  have e5 : ((A ++ .std n1 :: B ++ .std n2 :: C) ++ .std s3 :: R').set k (.std n3) =
      (A ++ .std n1 :: B ++ .std n2 :: C) ++ .std n3 :: R' := by
    have hl : (A ++ .std n1 :: B ++ .std n2 :: C : List (Op ℝ)).length = k := by
      simp only [List.length_append, List.length_cons]; omega
    rw [List.set_append_right _ _ (by omega), hl, Nat.sub_self, List.set_cons_zero]
  rw [e3, e5, ← e4]
  exact eqv_triple h2.ok k2.ok h2.used k2.used h3.ok k3.ok h3.used k3.used havB havC he

theorem IsPair.on {e : Op ℝ} {sw : Bool} {q0 q1 : ℕ} {s : StdOp ℝ} (h : IsPair e sw q0 q1 s) :
    On {q0, q1} s := on_of h.den h.used

/-- The two qubits of the last operation are those of the current one. -/
theorem same_qubits {q0 q1 p0 p1 : ℕ} (hq : q0 ≠ q1) (h : ({q0, q1} : Finset ℕ) = {p0, p1}) :
    (q0 = p0 ∧ q1 = p1) ∨ (q0 = p1 ∧ q1 = p0) := by
  have h0 : q0 ∈ ({p0, p1} : Finset ℕ) := by rw [← h]; simp
  have h1 : q1 ∈ ({p0, p1} : Finset ℕ) := by rw [← h]; simp
  simp only [Finset.mem_insert, Finset.mem_singleton] at h0 h1
  omega

theorem cancelRewrite_step {n k i : ℕ} {ops0 : List (Op ℝ)} {S : PassState ℝ}
    (h : PassInv n ops0 S k) {it e : Op ℝ} {r0 r1 : List ℕ} {isSwap prevSwap : Bool}
    {q0 q1 p0 p1 : ℕ} {s2 s1 : StdOp ℝ} (hit : S.ops[k]? = some it) (he : S.ops[i]? = some e)
    (h2 : IsPair it isSwap q0 q1 s2) (h1 : IsPair e prevSwap p0 p1 s1)
    (d0 : S.dag q0 = i :: r0) (d1 : S.dag q1 = i :: r1) :
    ∃ S', cancelRewrite n S k i it r0 r1 isSwap prevSwap q0 q1 p0 p1 = some S' ∧
      PassInv n ops0 S' (k + 1) := by
  have hadd := h.add hit
  obtain ⟨rfl, ne2, us2, den2, ty2, ts2⟩ := h2
  obtain ⟨rfl, ne1, us1, den1, ty1, ts1⟩ := h1
  have hik : i < k := (h.dag.sound q0 i (by rw [d0]; simp)).1
  -- the last operation acts on exactly the qubits of the current one
  have hset : ({q0, q1} : Finset ℕ) = {p0, p1} := by
    have a0 : q0 ∈ s1.used := by
      obtain ⟨-, o, ho, hq⟩ := h.dag.sound q0 i (by rw [d0]; simp)
      rw [he] at ho; injection ho with ho; subst ho; exact hq
    have a1 : q1 ∈ s1.used := by
      obtain ⟨-, o, ho, hq⟩ := h.dag.sound q1 i (by rw [d1]; simp)
      rw [he] at ho; injection ho with ho; subst ho; exact hq
    rw [us1] at a0 a1
    simp only [Finset.mem_insert, Finset.mem_singleton] at a0 a1
    ext q
    simp only [Finset.mem_insert, Finset.mem_singleton]
    omega
  have hsame := same_qubits ne2 hset
  have us1' : s1.used = {q0, q1} := by rw [us1, hset]
  have on2 : On {q0, q1} s2 := on_of den2 us2
  match isSwap, prevSwap with
  | false, false =>
    by_cases g1 : q0 = p0 ∧ q1 = p1
    · simp only [cancelRewrite]
      rw [if_pos g1]
      obtain ⟨rfl, rfl⟩ := g1
      refine ⟨_, rfl, h.killPair d0 d1 he hit us1' ?_⟩
      exact h.pair d0 d1 he hit on2 (on_dead rfl)
        (eqv_cancel den1 den2 ty1 ty2 rfl rfl fun x => cxMap_cxMap ne2.symm x)
    · simp only [cancelRewrite]
      rw [if_neg g1]
      match r0, r1, d0, d1 with
      | [], _, _, _ => exact hadd
      | _ :: _, [], _, _ => exact hadd
      | a :: l0, b :: l1, d0, d1 =>
        simp only
        by_cases g2 : a ≠ b
        · rw [if_pos g2]; exact hadd
        rw [if_neg g2]
        push Not at g2
        subst g2
        obtain ⟨-, ea, hea, -⟩ := h.dag.sound q0 a (by rw [d0]; simp)
        rw [hea, Option.bind_some]
        cases hca : cnot? ea with
        | none => exact hadd
        | some pa =>
        obtain ⟨c2, t2⟩ := pa
        simp only
        by_cases g3 : q0 = t2 ∧ q1 = c2
        · rw [if_pos g3]
          obtain ⟨rfl, rfl⟩ := g3
          have hps : p0 = q1 ∧ p1 = q0 := by
            rcases hsame with ⟨e1, e2⟩ | ⟨e1, e2⟩
            · exact absurd ⟨e1, e2⟩ g1
            · exact ⟨e2.symm, e1.symm⟩
          obtain ⟨rfl, rfl⟩ := hps
          have tA : ea.type ≠ .i := by
            obtain ⟨o, rfl, ht, -⟩ := cnot?_eq_some hca
            rw [Op.type, ht]; decide
          obtain ⟨sa, rfl, a1, a2, a3, -⟩ := cnot?_valid hca
            ((h.ok ea (List.mem_of_getElem? hea)).valid tA)
          have dena := cnot_denote a1 a2 a3
          have hai : a < i := by
            have := h.dag.sorted p1
            rw [d0] at this
            exact (List.pairwise_cons.1 this).1 a (by simp)
          obtain ⟨w0, w1, hw, hww⟩ : ∃ w0 w1, ((w0 = p0 ∧ w1 = p1) ∨ (w0 = p1 ∧ w1 = p0)) ∧
              (if p0 > p1 then [p1, p0] else [p0, p1]) = [w0, w1] := by
            by_cases hlt : p0 > p1
            · exact ⟨p1, p0, Or.inr ⟨rfl, rfl⟩, if_pos hlt⟩
            · exact ⟨p0, p1, Or.inl ⟨rfl, rfl⟩, if_neg hlt⟩
          rw [hww]
          have wset : ({w0, w1} : Finset ℕ) = {p1, p0} := by
            rcases hw with ⟨rfl, rfl⟩ | ⟨rfl, rfl⟩
            · exact Finset.pair_comm _ _
            · rfl
          have wne : w0 ≠ w1 := by
            rcases hw with ⟨rfl, rfl⟩ | ⟨rfl, rfl⟩
            · exact ne1
            · exact ne1.symm
          have emod := modify_eq_set (f := retype .swap [w0, w1] ∅) hea
          rw [emod]
          refine ⟨_, rfl, ?_⟩
          -- the intermediate state is structurally fine; its meaning is restored by the two kills
          have usa : sa.used = {p1, p0} := by rw [used_cx a2 a3, Finset.pair_comm]
          have hrng : ∀ q ∈ ({p1, p0} : Finset ℕ), q < n := by
            intro q hq
            exact (h.ok _ (List.mem_of_getElem? hea)).range q (by rw [Op.usedQ, usa]; exact hq)
          have hi' : (S.ops.set a (retype .swap [w0, w1] ∅ (.std sa)))[i]? = some (.std s1) := by
            rw [List.getElem?_set_ne (by omega)]; exact he
          have hk' : (S.ops.set a (retype .swap [w0, w1] ∅ (.std sa)))[k]? = some (.std s2) := by
            rw [List.getElem?_set_ne (by omega)]; exact hit
          have hdag := h.dag.set_same hea (o' := retype .swap [w0, w1] ∅ (.std sa)) (by
            rw [retype, Op.usedQ, Op.usedQ, used_swap rfl rfl, wset, usa]) tA
          have hok : ∀ e ∈ S.ops.set a (retype .swap [w0, w1] ∅ (.std sa)), OpOk n e :=
            ok_set h.ok (opOk_std (fun _ => swap_valid wne) (by
              rw [used_swap rfl rfl, wset]; exact hrng))
          have heqv : Eqv ops0 (((S.ops.set a (retype .swap [w0, w1] ∅ (.std sa))).set i
              (kill (.std s1))).set k (kill (.std s2))) := by
            refine h.triple d0 d1 hea he hit (on_of den1 us1') (on_dead rfl) on2 (on_dead rfl) ?_
            unfold Eqv
            rw [strip_live (s := sa) (by rw [a1]; decide), strip_live ty1, strip_live ty2,
              strip_live (fun e => by cases e), strip_dead rfl, strip_dead rfl]
            funext cfg
            have dsw : StdOp.denote { sa with type := .swap, targets := [w0, w1], controls := ∅ } =
              some (pull (swapMap w0 w1)) := swap_denote rfl rfl rfl
            have e0 := run_pull_cons dena (run_pull_cons den1 (run_pull_cons den2 run_pull_nil)) cfg
            have e1 := run_pull_cons dsw run_pull_nil cfg
            simp only [pairMap, cx_cx_cx_eq_swap ne1] at e0
            have hsw : swapMap w0 w1 = swapMap p0 p1 := by
              rcases hw with ⟨rfl, rfl⟩ | ⟨rfl, rfl⟩
              · rfl
              · funext x; exact swapMap_comm _ _ x
            rw [hsw] at e1
            rw [show strip ([] : List (Op ℝ)) = [] from rfl, e0, e1]
          have hkl : k < S.ops.length := (List.getElem?_eq_some_iff.1 hit).1
          have ho1 := (h.ok _ (List.mem_of_getElem? he)).range
          have ho2 := (h.ok _ (List.mem_of_getElem? hit)).range
          rw [Op.usedQ] at ho1 ho2
          unfold MQT.Opt.killPair
          simp only
          rw [modify_eq_set (f := kill) hi', modify_eq_set (f := kill)
            (a := Op.std s2) (by rw [List.getElem?_set_ne (by omega)]; exact hk')]
          refine ⟨by simp [h.len], ?_, ok_set (ok_set hok (opOk_kill ho1)) (opOk_kill ho2), heqv⟩
          refine DagInv.skip (o := kill (.std s2)) ?_ ?_ rfl
          · exact (hdag.kill hi' (by rw [Op.usedQ, us1']) d0 d1 rfl).set_current _
          · rw [List.getElem?_set_self (by simpa using hkl)]
        · rw [if_neg g3]; exact hadd
  | true, true =>
    simp only [cancelRewrite]
    rw [if_pos hset]
    refine ⟨_, rfl, h.killPair d0 d1 he hit us1' ?_⟩
    refine h.pair d0 d1 he hit on2 (on_dead rfl) (eqv_cancel den1 den2 ty1 ty2 rfl rfl fun x => ?_)
    rcases hsame with ⟨rfl, rfl⟩ | ⟨rfl, rfl⟩
    · exact swapMap_swapMap ne2 x
    · rw [pairMap, pairMap, swapMap_comm q0 q1]; exact swapMap_swapMap ne1 x
  | false, true =>
    simp only [cancelRewrite]
    refine h.replacePair d0 d1 he hit us1' ty1 on2
      (n1 := { s1 with type := .x, targets := [q0], controls := {(q1, true)} })
      (n2 := { s2 with type := .x, targets := [q1], controls := {(q0, true)} })
      (by rw [used_cx rfl rfl, Finset.pair_comm]) (used_cx rfl rfl) (cx_valid ne2.symm)
      (cx_valid ne2) (f := retype .x [q0] {(q1, true)})
      (g := retype .x [q1] {(q0, true)}) rfl rfl rfl ?_
    refine eqv_of_pull den1 den2 (cnot_denote rfl rfl rfl) (cnot_denote rfl rfl rfl) ty1 ty2
      (fun e => by cases e) (fun e => by cases e) fun x => ?_
    have hsw : swapMap p0 p1 = swapMap q1 q0 := by
      rcases hsame with ⟨rfl, rfl⟩ | ⟨rfl, rfl⟩
      · funext x; exact swapMap_comm _ _ x
      · rfl
    rw [pairMap, pairMap, hsw]
    exact (cx_cx_eq_swap_cx ne2.symm x).symm
  | true, false =>
    simp only [cancelRewrite]
    have hset' : ({p1, p0} : Finset ℕ) = {q0, q1} := by rw [Finset.pair_comm, hset]
    refine h.replacePair d0 d1 he hit us1' ty1 on2
      (n1 := { s1 with type := .x, targets := [p1], controls := {(p0, true)} })
      (n2 := { s2 with type := .x, targets := [p0], controls := {(p1, true)} })
      (by rw [used_cx rfl rfl, hset]) (by rw [used_cx rfl rfl, hset']) (cx_valid ne1)
      (cx_valid ne1.symm) (f := retype .x [p1] {(p0, true)})
      (g := retype .x [p0] {(p1, true)}) rfl rfl hset' ?_
    refine eqv_of_pull den1 den2 (cnot_denote rfl rfl rfl) (cnot_denote rfl rfl rfl) ty1 ty2
      (fun e => by cases e) (fun e => by cases e) fun x => ?_
    have hsw : swapMap q0 q1 = swapMap p1 p0 := by
      rcases hsame with ⟨rfl, rfl⟩ | ⟨rfl, rfl⟩
      · funext x; exact swapMap_comm _ _ x
      · rfl
    rw [pairMap, pairMap, hsw]
    exact cx_swap_eq_cx_cx ne1.symm x

theorem cancel_step {n k : ℕ} {ops0 : List (Op ℝ)} {S : PassState ℝ} (h : PassInv n ops0 S k)
    (hk : k < S.ops.length) :
    ∃ S', cancelStep n S k = some S' ∧ PassInv n ops0 S' (k + 1) := by
  obtain ⟨it, hit⟩ : ∃ it, S.ops[k]? = some it := ⟨_, List.getElem?_eq_getElem hk⟩
  have hadd := h.add hit
  rw [cancelStep, hit]
  simp only
  cases hc : pairGate it with
  | none => exact hadd
  | some p =>
    obtain ⟨sw, q0, q1⟩ := p
    have okit := h.ok it (List.mem_of_getElem? hit)
    obtain ⟨s2, hp2⟩ := pairGate_valid hc okit.valid
    have hr : q0 < n ∧ q1 < n := by
      have := okit.range
      rw [hp2.eq, Op.usedQ, hp2.used] at this
      exact ⟨this q0 (by simp), this q1 (by simp)⟩
    simp only
    rw [if_neg (by omega)]
    cases hd0 : S.dag q0 with
    | nil => exact hadd
    | cons i r0 =>
    cases hd1 : S.dag q1 with
    | nil => exact hadd
    | cons j r1 =>
    simp only
    by_cases hij : i ≠ j
    · rw [if_pos hij]; exact hadd
    rw [if_neg hij]
    push Not at hij
    subst hij
    obtain ⟨-, e, he, -⟩ := h.dag.sound q0 i (by rw [hd0]; simp)
    rw [he, Option.bind_some]
    cases hcp : pairGate e with
    | none => exact hadd
    | some pp =>
      obtain ⟨psw, p0, p1⟩ := pp
      obtain ⟨s1, hp1⟩ := pairGate_valid hcp (h.ok e (List.mem_of_getElem? he)).valid
      exact cancelRewrite_step h hit he hp2 hp1 hd0 hd1

theorem cancelCNOTs_correct {n : ℕ} {ops : List (Op ℝ)} (hv : Op.ValidL ops)
    (hp : ∀ e ∈ ops, e.plain = true) (hr : ∀ e ∈ ops, ∀ q ∈ e.usedQ, q < n) :
    ∃ ops', cancelCNOTs n ops = some ops' ∧ run ops' = run ops := by
  obtain ⟨S, h1, h2⟩ := PassInv.fold (step := cancelStep n) (fun S k h hk => cancel_step h hk)
    (PassInv.init hv hp hr) ops.length (le_refl _)
  exact ⟨_, by rw [cancelCNOTs, h1]; rfl, h2.finish hv⟩

end MQT.Opt
