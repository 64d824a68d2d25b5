/-
Property C90: collecting operations into blocks.
-/
import Verif.Opt.BlocksSem
import Verif.Props.Opt

set_option autoImplicit false

namespace MQT.Opt

open MQT.IR
open Function (update)

namespace Blocks

variable {P : Type}

/-- The order of `std::sort` and of the unordered maps does not matter: entries are only permuted. -/
def Perms (srt : Sorter) : Prop := ∀ l, (srt l).Perm l

/-- **C90.** The pass ends: `findBlock` recurses at most as often as a block has qubits, and no null pointer is left in the
circuit. -/
theorem c90_total {f max : ℕ} (hf : Nat.max 1 max ≤ f) {srt : Sorter} (hsrt : Perms srt) {keys : List ℕ} {ops : List (Op P)}
    (hk : Keys keys ops) : ∃ r, collectBlocks f max srt keys ops = some r := by
  by_cases h2 : 2 ≤ ops.length
  · obtain ⟨l, _, S, _, e, -⟩ := collect_spec hf hsrt hk h2 (X := fun _ _ _ => True) trivial (fun _ _ _ _ _ _ _ _ _ _ => trivial)
      (fun _ _ _ _ _ _ _ => trivial)
    exact ⟨_, e⟩
  · exact ⟨(ops, false), by rw [collectBlocks, if_pos (by omega)]⟩

/-- **C90.** The result has the operations of the circuit, up to their order, to the compound operations around them and to
identities: none is lost, duplicated or changed. -/
theorem c90_same_operations {f max : ℕ} (hf : Nat.max 1 max ≤ f) {srt : Sorter} (hsrt : Perms srt) {keys : List ℕ} {ops : List (Op P)}
    (hk : Keys keys ops) {r : List (Op P) × Bool} (h : collectBlocks f max srt keys ops = some r) :
    (leavesL r.1).Perm (leavesL ops) := by
  by_cases h2 : 2 ≤ ops.length
  · have hM : 1 ≤ Nat.max 1 max := Nat.le_max_left 1 max
    obtain ⟨l, _, S, _, e, -, -, hl, L, hL, hp⟩ := collect_spec hf hsrt hk h2
      (X := fun D S _ => ∃ L, Rep S L ∧ (leavesL L.flatten).Perm (leavesL D)) ⟨[], rep_init, .nil⟩
      (fun D S ρ o S' ρ' _ hi hx hs => hs.perm hM hi hx) (fun S ρ S' ρ' hi hx ht => ht.perm hM _ hi hx)
    rw [h] at e
    injection e with e
    rw [e]
    simp only
    rw [leaves_removeIdentities, ← rep_done hL hl]
    exact hp
  · rw [collectBlocks, if_pos (by omega)] at h
    cases h
    exact .refl _

/-- A gate or a compound operation. -/
def Gate (o : Op P) : Prop := (∃ s, o = .std s) ∨ ∃ l c, o = .compound l c

theorem isUnitary_gate (o : Op P) : isUnitary o = true ↔ Gate o := by
  cases o <;> simp [isUnitary, Gate]

/-- **C90.** Every operation of the result is an operation of the circuit (without its identities) that is not unitary or uses
more qubits than asked for, or it is made of unitary operations of the circuit only and uses at most as many qubits as asked for. -/
theorem c90_size {f max : ℕ} (hf : Nat.max 1 max ≤ f) {srt : Sorter} (hsrt : Perms srt) {keys : List ℕ} {ops : List (Op P)}
    (hk : Keys keys ops) (h2 : 2 ≤ ops.length) {r : List (Op P) × Bool} (h : collectBlocks f max srt keys ops = some r) :
    ∀ o ∈ r.1, (∃ o' ∈ ops, o ∈ removeIdentities1 o' ∧ (Gate o' → max < o'.usedQ.card)) ∨
      (o.usedQ.card ≤ Nat.max 1 max ∧ ∃ l, (∀ x ∈ l, x ∈ ops ∧ Gate x) ∧ o ∈ removeIdentities1 (close l)) := by
  have hM : 1 ≤ Nat.max 1 max := Nat.le_max_left 1 max
  let R : Op P → Prop := fun x => x ∈ ops ∧ Gate x
  let Q : Op P → Prop := fun o => o = ident ∨ (o.usedQ.card ≤ Nat.max 1 max ∧ ∃ l, (∀ x ∈ l, R x) ∧ o = close l) ∨
    (o ∈ ops ∧ (Gate o → max < o.usedQ.card))
  have hid : Q ident := Or.inl rfl
  have hq : ∀ l : List (Op P), (∀ o ∈ l, R o) → (∃ s : Finset ℕ, s.card ≤ Nat.max 1 max ∧ ∀ o ∈ l, o.usedQ ⊆ s) → Q (close l) := by
    rintro l hl ⟨s, hs, hl'⟩
    refine Or.inr (Or.inl ⟨?_, l, hl, rfl⟩)
    rw [usedQ_close]
    exact (Finset.card_le_card (usedQL_subset l s hl')).trans hs
  obtain ⟨l, _, S, _, e, -, -, hl, -, hQ⟩ := collect_spec hf hsrt hk h2 (X := fun _ S _ => AllOps R S ∧ AllSlots Q S)
    ⟨fun i o h => by simp at h, fun i o h => by simp at h⟩
    (fun D S ρ o S' ρ' ho hi hx hs => by
      cases hs with
      | block S1 r t u hl hr hk hu e =>
        subst e
        have h0 : AllOps R S1 := t.allOps hx.1
        have h1 := t.allSlots hM hi hid hq hx.1 hx.2
        refine ⟨h0.put r ⟨ho, (isUnitary_gate o).1 u⟩, ?_⟩
        intro i o' ho'
        unfold put at ho'
        cases hc : S1.cur r with
        | none => rw [hc] at ho'; exact h1.snoc (by simp) i o' ho'
        | some k => rw [hc] at ho'; exact h1 i o' ho'
      | own S1 t u hu e =>
        subst e
        have h0 : AllOps R S1 := t.allOps hx.1
        have h1 := t.allSlots hM hi hid hq hx.1 hx.2
        exact ⟨h0, h1.snoc (by simpa using Or.inr (Or.inr ⟨ho, fun g => u ((isUnitary_gate o).2 g)⟩))⟩)
    (fun S ρ S' ρ' hi hx ht => ⟨ht.allOps hx.1, ht.allSlots hM hi hid hq hx.1 hx.2⟩)
  rw [h] at e
  injection e with e
  rw [e]
  intro o ho
  obtain ⟨o', ho', hm⟩ := List.mem_flatMap.1 ho
  obtain ⟨k, hk'⟩ := List.mem_iff_getElem?.1 ho'
  rcases hQ k o' (by rw [hl, List.getElem?_map, hk']; rfl) with h3 | ⟨h3, L, h4, h5⟩ | ⟨h3, h4⟩
  · rw [h3] at hm
    exact absurd hm (by simp [removeIdentities1, ident, Op.type])
  · exact Or.inr ⟨(Finset.card_le_card (usedQ_removeIdentities1 o' o hm)).trans h3, L, h4, h5 ▸ hm⟩
  · exact Or.inl ⟨o', h3, hm, h4⟩

/-- **C90.** If no qubit has been added to a block that stands before an operation on the qubit, the meaning of the circuit is
kept.
Missing from C90: the other circuits (`c90_meaning_fails`); classically controlled compound operations (`c90_hidden`) and
compound operations that are not unitary. -/
theorem c90_meaning_partial {f max : ℕ} (hf : Nat.max 1 max ≤ f) {srt : Sorter} (hsrt : Perms srt) {keys : List ℕ} {ops : List (Op ℝ)}
    (hk : Keys keys ops) (hfit : ∀ o ∈ ops, Fit o) {r : List (Op ℝ) × Bool} (h : collectBlocks f max srt keys ops = some r)
    (hst : r.2 = false) : run r.1 = run ops := by
  by_cases h2 : 2 ≤ ops.length
  · have hM : 1 ≤ Nat.max 1 max := Nat.le_max_left 1 max
    obtain ⟨l, _, S, _, e, -, -, hl, hm⟩ := collect_spec hf hsrt hk h2
      (X := fun D S _ => Mean S D) mean_init
      (fun D S ρ o S' ρ' ho hi hx hs => hs.mean hM (hfit o ho) hi hx) (fun S ρ S' ρ' hi hx ht => ht.mean hM hi hx)
    rw [h] at e
    injection e with e
    subst e
    obtain ⟨-, L, hL, hr⟩ := hm.sem hst
    have hv : ∀ o ∈ l, o.Valid := by
      intro o ho
      obtain ⟨k, hk'⟩ := List.mem_iff_getElem?.1 ho
      exact hm.ok k o (by rw [hl, List.getElem?_map, hk']; rfl)
    rw [run_removeIdentities fun o ho => Valid.parts (hv o ho), run_strip ((Op.validL_iff l).2 hv), ← rep_done hL hl]
    exact hr
  · rw [collectBlocks, if_pos (by omega)] at h
    cases h
    rfl

/-- **C90.** Blocks of one qubit keep the meaning.
Missing from C90: larger blocks; classically controlled compound operations and compound operations that are not unitary. -/
theorem c90_one_qubit_partial {f max : ℕ} (hmax : max ≤ 1) (hf : 1 ≤ f) {srt : Sorter} (hsrt : Perms srt) {keys : List ℕ} {ops : List (Op ℝ)}
    (hk : Keys keys ops) (hfit : ∀ o ∈ ops, Fit o) {r : List (Op ℝ) × Bool} (h : collectBlocks f max srt keys ops = some r) :
    run r.1 = run ops := by
  have h1 : Nat.max 1 max = 1 := Nat.max_eq_left hmax
  have hf' : Nat.max 1 max ≤ f := by rw [h1]; exact hf
  refine c90_meaning_partial hf' hsrt hk hfit h ?_
  by_cases h2 : 2 ≤ ops.length
  · obtain ⟨l, _, S, _, e, -, -, hl, hs⟩ := collect_spec hf' hsrt hk h2 (X := fun _ S _ => S.stale = false) rfl
      (fun D S ρ o S' ρ' ho hi hx hs => by
        rw [h1] at hs hi
        cases hs with
        | block S1 r t u hl hr hk hu e => rw [e, put_stale, t.still hi]; exact hx
        | own S1 t u hu e => rw [e]; exact (t.still hi).trans hx)
      (fun S ρ S' ρ' hi hx ht => by
        rw [h1] at ht hi
        rw [ht.still hi]; exact hx)
    rw [h] at e
    injection e with e
    rw [e]
    exact hs
  · rw [collectBlocks, if_pos (by omega)] at h
    cases h
    rfl

/-- **C90.** If the whole circuit fits into a block, its meaning is kept.
Missing from C90: circuits with more qubits than a block or with operations that are not unitary or act on no qubit. -/
theorem c90_small_circuit_partial {f max : ℕ} (hf : Nat.max 1 max ≤ f) {srt : Sorter} (hsrt : Perms srt) {keys : List ℕ} {ops : List (Op ℝ)}
    (hkeys : keys.toFinset.card ≤ max) (hk : ∀ o ∈ ops, ∀ q ∈ o.usedQ, q ∈ keys) (hfit : ∀ o ∈ ops, Fit o)
    (hu : ∀ o ∈ ops, isUnitary o = true ∧ o.usedQ ≠ ∅) {r : List (Op ℝ) × Bool} (h : collectBlocks f max srt keys ops = some r) :
    run r.1 = run ops := by
  have hk' : Keys keys ops := fun o ho => ⟨hk o ho, fun _ h => absurd h (hu o ho).2⟩
  refine c90_meaning_partial hf hsrt hk' hfit h ?_
  by_cases h2 : 2 ≤ ops.length
  · obtain ⟨l, S1, S, _, e, e1, e2, -⟩ := collect_spec hf hsrt hk' h2 (X := fun _ _ _ => True) trivial
      (fun _ _ _ _ _ _ _ _ _ _ => trivial) (fun _ _ _ _ _ _ _ => trivial)
    have hM : 1 ≤ Nat.max 1 max := Nat.le_max_left 1 max
    have hm : max ≤ Nat.max 1 max := Nat.le_max_right 1 max
    have hc := loop_calm (K := (· ∈ keys)) hM hm hf hsrt ⟨keys.toFinset, hkeys, fun q hq => List.mem_toFinset.2 hq⟩ ops
      (fun o ho => ⟨hk o ho, hu o ho⟩) (inv_init hM) (fun r _ _ _ => rfl) ⟨rfl, fun i o h => by simp at h⟩ S1 e1
    rw [h] at e
    injection e with e
    rw [e]
    simp only
    rw [finish_stale keys e2]
    exact hc.1
  · rw [collectBlocks, if_pos (by omega)] at h
    cases h
    rfl

/-! ### Comparing operations -/

mutual
/-- Are two operations without parameters and conditions the same? -/
def same : Op P → Op P → Bool
  | .std a, .std b => decide (a.type = b.type) && a.params.isEmpty && b.params.isEmpty && decide (a.controls = b.controls) && decide (a.targets = b.targets)
  | .compound l c, .compound l' c' => sameL l l' && c == c'
  | .measure a b, .measure a' b' => decide (a = a') && decide (b = b')
  | .reset a, .reset a' => decide (a = a')
  | _, _ => false
def sameL : List (Op P) → List (Op P) → Bool
  | [], [] => true
  | a :: l, b :: l' => same a b && sameL l l'
  | _, _ => false
end

mutual
theorem same_eq (a b : Op P) (h : same a b = true) : a = b := by
  match a, b with
  | .std a, .std b =>
    simp only [same, Bool.and_eq_true, decide_eq_true_eq, List.isEmpty_iff] at h
    obtain ⟨⟨⟨⟨h1, h2⟩, h3⟩, h4⟩, h5⟩ := h
    cases a
    cases b
    simp only at h1 h2 h3 h4 h5
    rw [h1, h2, h3, h4, h5]
  | .compound l c, .compound l' c' =>
    simp only [same, Bool.and_eq_true, beq_iff_eq] at h
    rw [sameL_eq l l' h.1, h.2]
  | .measure a b, .measure a' b' =>
    simp only [same, Bool.and_eq_true, decide_eq_true_eq] at h
    rw [h.1, h.2]
  | .reset a, .reset a' =>
    simp only [same, decide_eq_true_eq] at h
    rw [h]
  | .std _, .compound _ _ | .std _, .measure _ _ | .std _, .reset _ | .std _, .classic _ _ | .compound _ _, .std _ | .compound _ _, .measure _ _
  | .compound _ _, .reset _ | .compound _ _, .classic _ _ | .measure _ _, .std _ | .measure _ _, .compound _ _ | .measure _ _, .reset _
  | .measure _ _, .classic _ _ | .reset _, .std _ | .reset _, .compound _ _ | .reset _, .measure _ _ | .reset _, .classic _ _
  | .classic _ _, .std _ | .classic _ _, .compound _ _ | .classic _ _, .measure _ _ | .classic _ _, .reset _ | .classic _ _, .classic _ _ =>
    exact absurd h (by simp [same])
theorem sameL_eq (l l' : List (Op P)) (h : sameL l l' = true) : l = l' := by
  match l, l' with
  | [], [] => rfl
  | a :: l, b :: l' =>
    simp only [sameL, Bool.and_eq_true] at h
    rw [same_eq a b h.1, sameL_eq l l' h.2]
  | [], _ :: _ => exact absurd h (by simp [sameL])
  | _ :: _, [] => exact absurd h (by simp [sameL])
end

/-- Is this the result? -/
def check (x : Option (List (Op P) × Bool)) (l : List (Op P)) (b : Bool) : Bool :=
  match x with
  | none => false
  | some r => sameL r.1 l && r.2 == b

theorem check_eq {x : Option (List (Op P) × Bool)} {l : List (Op P)} {b : Bool} (h : check x l b = true) : x = some (l, b) := by
  cases x with
  | none => cases h
  | some r =>
    simp only [check, Bool.and_eq_true, beq_iff_eq] at h
    rw [← sameL_eq _ _ h.1, ← h.2]

/-! ### Wrong results -/

/-- Three gates on at most two qubits. -/
def chain : List (Op P) := [gate .x [2], cxOp 0 1, cxOp 2 0]

/-- What becomes of them with blocks of two qubits: the last gate is put into the first block, before the second gate. -/
def chainBlocks : List (Op P) := [.compound [gate .x [2], cxOp 2 0] false, cxOp 0 1]

theorem chain_blocks : collectBlocks 2 2 id [0, 1, 2] (chain (P := ℝ)) = some (chainBlocks, true) :=
  check_eq (by decide +kernel)

theorem gate_fit {ty : OpType} {q : ℕ} {M : Mat1} (hs : ty.isSingleQubitGate = true) (h : gate1 ty [] = some M) : Fit (gate ty [q]) :=
  ⟨⟨⟨by simp, by simp [ctrlQubits]⟩, _, StdOp.denote_single_of (q := q) hs rfl h⟩, rfl, fun _ => rfl⟩

theorem cx_fit {c t : ℕ} (h : c ≠ t) : Fit (cxOp c t) := ⟨cx_valid h, rfl, fun _ => rfl⟩

theorem chain_fit : ∀ o ∈ (chain : List (Op ℝ)), Fit o := by
  intro o ho
  simp only [chain, List.mem_cons, List.not_mem_nil, or_false] at ho
  rcases ho with rfl | rfl | rfl
  · exact gate_fit (M := mat1 0 1 1 0) rfl rfl
  · exact cx_fit (by decide)
  · exact cx_fit (by decide)

/-- **C90 fails:** the last of three gates, a CNOT of qubits 2 and 0, is moved before the CNOT of qubits 0 and 1. -/
theorem c90_meaning_fails : ∃ ops ops' : List (Op ℝ), Keys [0, 1, 2] ops ∧ (∀ o ∈ ops, Fit o) ∧ (∀ o ∈ ops, o.usedQ.card ≤ 2) ∧
    collectBlocks 2 2 id [0, 1, 2] ops = some (ops', true) ∧ run ops' ≠ run ops := by
  refine ⟨chain, chainBlocks, ?_, chain_fit, by decide +kernel, chain_blocks, fun h => ?_⟩
  · intro o ho
    simp only [chain, List.mem_cons, List.not_mem_nil, or_false] at ho
    rcases ho with rfl | rfl | rfl
    all_goals exact ⟨by decide +kernel, fun _ h => absurd h (by decide +kernel)⟩
  · have h1 := congrFun h (cfg0 (basisAt [(0, false), (1, false), (2, false)]))
    have hx : ∀ c : Cfg, exec (gate .x [2]) c = some (c.mapSt (app1 (mat1 0 1 1 0) 2)) := fun c => gate1_exec rfl rfl c
    simp only [chain, chainBlocks, run_cons, run_compound, cxOp_exec, hx, Option.bind_some, run_nil, Option.some.injEq] at h1
    have h2 := congrFun (congrArg Cfg.st h1) (bitsAt [0, 2])
    simp [Cfg.mapSt, pull, cxMap, flip_app, cfg0, basisAt, bitsAt] at h2

/-- A classically controlled compound operation between two gates on its qubit. -/
def hidden : List (Op ℝ) := [gate .x [0], .classic (fun m => m 0) (.compound [gate .z [0]] false), gate .x [0]]

theorem hidden_blocks : collectBlocks 1 1 id [0] hidden =
    some ([.compound [gate .x [0], gate .x [0]] false, .classic (fun m => m 0) (.compound [gate .z [0]] false)], false) := rfl

theorem hidden_valid : Op.ValidL hidden := by
  rw [Op.validL_iff]
  intro e he
  simp only [hidden, List.mem_cons, List.not_mem_nil, or_false] at he
  rcases he with rfl | rfl | rfl
  · exact (gate_fit (M := mat1 0 1 1 0) rfl rfl).1
  · rw [Op.Valid, Op.Valid, Op.ValidL, Op.ValidL]
    exact ⟨(gate_fit (M := mat1 1 0 0 (-1)) rfl (by simp [gate1])).1, trivial⟩
  · exact (gate_fit (M := mat1 0 1 1 0) rfl rfl).1

/-- **C90 fails:** a classically controlled compound operation uses no qubit, so that a later gate on its qubit is moved before
it, although no qubit has been added to an old block. -/
theorem c90_hidden : ∃ ops ops' : List (Op ℝ), Keys [0] ops ∧ Op.ValidL ops ∧ collectBlocks 1 1 id [0] ops = some (ops', false) ∧
    run ops' ≠ run ops := by
  refine ⟨hidden, _, ?_, hidden_valid, hidden_blocks, fun h => ?_⟩
  · intro o ho
    simp only [hidden, List.mem_cons, List.not_mem_nil, or_false] at ho
    rcases ho with rfl | rfl | rfl
    · exact ⟨by decide +kernel, fun _ h => absurd h (by decide +kernel)⟩
    · exact ⟨fun q hq => absurd hq (Finset.notMem_empty q), fun h => Bool.noConfusion h⟩
    · exact ⟨by decide +kernel, fun _ h => absurd h (by decide +kernel)⟩
  · have h1 := congrFun h (cfg0 (basisAt [(0, false)]))
    have hx : ∀ c : Cfg, exec (gate .x [0]) c = some (c.mapSt (app1 (mat1 0 1 1 0) 0)) := fun c => gate1_exec rfl rfl c
    have hz : ∀ c : Cfg, c.mem 0 = true → exec (.classic (fun m => m 0) (.compound [gate .z [0]] false)) c =
        some (c.mapSt (app1 (mat1 1 0 0 (-1)) 0)) := by
      intro c hc
      rw [exec]
      simp only [hc, if_true]
      rw [run_compound, run_singleton, gate1_exec (M := mat1 1 0 0 (-1)) rfl (by simp [gate1])]
    rw [hidden, run_cons, run_compound, run_cons, hx, Option.bind_some, run_singleton, hx, Option.bind_some, run_singleton,
      hz _ rfl, run_cons, hx, Option.bind_some, run_cons, hz _ rfl, Option.bind_some, run_singleton, hx] at h1
    injection h1 with h1
    have h2 := congrFun (congrArg Cfg.st h1) (bitsAt [])
    simp [Cfg.mapSt, cfg0, basisAt, bitsAt, app1, mat1] at h2
    norm_num at h2

/-- Two blocks of two qubits, and a third one after the measurement. -/
example : collectBlocks 2 2 id [0, 1, 2, 3]
    ([gate .h [0], cxOp 0 1, cxOp 2 3, gate .t [1], gate .s [2], .measure [1] [0], gate .x [1], gate .h [3]] : List (Op ℚ)) =
    some ([.compound [gate .h [0], cxOp 0 1, gate .t [1]] false, .compound [cxOp 2 3, gate .s [2], gate .h [3]] false,
      .measure [1] [0], gate .x [1]], false) := check_eq (by decide +kernel)

/-- Too large a gate stays outside the blocks, and identities go. -/
example : collectBlocks 2 2 id [0, 1, 2]
    ([gate .h [0], gate .i [1], .std ⟨.x, [], {(0, true), (1, true)}, [2]⟩, gate .h [0], cxOp 0 1] : List (Op ℚ)) =
    some ([gate .h [0], .std ⟨.x, [], {(0, true), (1, true)}, [2]⟩, .compound [gate .h [0], cxOp 0 1] false], false) :=
  check_eq (by decide +kernel)

/-- Merging two blocks. -/
example : collectBlocks 3 3 id [0, 1, 2]
    ([gate .h [0], cxOp 1 2, cxOp 0 1, gate .t [2]] : List (Op ℚ)) =
    some ([.compound [gate .h [0], cxOp 1 2, cxOp 0 1, gate .t [2]] false], false) :=
  check_eq (by decide +kernel)

end Blocks

end MQT.Opt
