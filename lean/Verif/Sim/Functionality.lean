/-
Building the functionality of a circuit, iteratively and recursively.

Source in /repo: src/dd/FunctionalityConstruction.cpp 22-48 (`buildFunctionality`), 51-113 (the
recursive helper), 116-142 (`buildFunctionalityRecursive`).

Simplifications: as in `Verif.Sim.Simulate`; no qubit is garbage.
-/
import Verif.Sim.Simulate
import Verif.DD.Ancilla
import Mathlib.Data.Nat.Log
import Mathlib.Data.Nat.Bitwise

set_option autoImplicit false

noncomputable section

open Classical
open Function (update)

namespace MQT.Sim

open MQT.IR MQT.DD MQT.Opt

/-! ### Model -/

/-- Correction of the permutation and reduction of the ancillaries at the end of both
constructions. -/
def finishFunctionality (n : ℕ) (out : Perm) (anc : List Bool) (r : Perm × MEdge) : Res MEdge :=
  (changePermutation n mmul (fun e : MEdge => e.p = .term ∧ e.w = 0) r.2 r.1 out).bind fun r =>
    match reduceAncillae r.2 anc true with
    | some e => .ok e
    | none => .ub

/-- `buildFunctionality` for a circuit on `n` qubits. -/
def buildFunctionality (n : ℕ) (ops : List (Op ℝ)) (init out : Perm) (anc : List Bool) : Res MEdge :=
  if n = 0 then .ok .one
  else
    match createInitialMatrix anc with
    | none => .ub
    | some e => (simLoop n mmul ops init e).bind (finishFunctionality n out anc)

/-- `opIdx & ~(1 << k)`. -/
def clearBit (i k : ℕ) : ℕ := if i.testBit k then i - 2 ^ k else i

/-- The recursive helper: the result, the permutation and the stack. -/
def recBuild (n : ℕ) (ops : List (Op ℝ)) :
    ℕ → ℕ → Perm → List MEdge → Res (Bool × Perm × List MEdge)
  | 0, _, _, _ => .ub
  | 1, i, p, s =>
    match ops[i]? with
    | none => .throw
    | some op =>
      (stepDD n p op).bind fun pe =>
        match ops[i + 1]? with
        | none => .ok (false, pe.1, pe.2 :: s)
        | some op' =>
          (stepDD n pe.1 op').bind fun pf =>
            (mulRes pf.2 pe.2).bind fun r => .ok (decide (i + 1 ≠ ops.length - 1), pf.1, r :: s)
  | d + 2, i, p, s =>
    (recBuild n ops (d + 1) (clearBit i (d + 1)) p s).bind fun l =>
      if l.1 = false then .ok (false, l.2)
      else
        (recBuild n ops (d + 1) (i ||| 2 ^ (d + 1)) l.2.1 l.2.2).bind fun r =>
          match r.2.2 with
          | e :: f :: s' => (mulRes e f).bind fun m => .ok (r.1, r.2.1, m :: s')
          | _ => .ub

/-- `buildFunctionalityRecursive`; `⌈log2 size⌉` is undefined for the empty circuit. -/
def buildFunctionalityRecursive (n : ℕ) (ops : List (Op ℝ)) (init out : Perm) (anc : List Bool) :
    Res MEdge :=
  if n = 0 then .ok .one
  else
    match ops with
    | [] => .ub
    | [op] => getDD n init false op
    | _ =>
      (recBuild n ops (Nat.clog 2 ops.length) 0 init []).bind fun r =>
        match r.2.2 with
        | e :: _ => finishFunctionality n out anc (r.2.1, e)
        | [] => .ub

/-! ### The iterative construction -/

theorem ActsL.unique {l : List (Op ℝ)} {f g : State → State} (h : ActsL l f) (h' : ActsL l g) :
    f = g := by
  funext ψ
  have := (h ⟨ψ, fun _ => false, fun _ => false⟩).symm.trans
    (h' ⟨ψ, fun _ => false, fun _ => false⟩)
  exact congrArg Cfg.st (Option.some.inj this)

theorem actsL_append {l l' : List (Op ℝ)} {f g : State → State} (h : ActsL l f)
    (h' : ActsL l' g) : ActsL (l ++ l') (fun ψ => g (f ψ)) := by
  intro c
  rw [run_append, h c, Option.bind_some, h']
  rfl

/-- The final step: a diagram whose columns `y` are `F (ψ y)` in layout `σ`. -/
theorem finish_spec {n : ℕ} {D V : ℕ → Prop} {σ₀ σ : Equiv.Perm ℕ} (hV : ∀ v, V v → v < n)
    {p out : Perm} {anc : List Bool} {e : MEdge} (hl : Lay D V σ₀ p σ)
    (ho1 : (out.map Prod.fst).Nodup) (ho2 : (out.map Prod.snd).Nodup)
    (ho3 : ∀ x ∈ out, D x.1 ∧ V x.2) (ha : anc.length = n) (he : MECan n e) :
    ∃ r τ, finishFunctionality n out anc (p, e) = .ok r ∧ MECan n r ∧
      Lay D V σ₀ (permAfter out p) τ ∧ (∀ x ∈ out, τ x.1 = x.2) ∧
      ∀ x y, r.mat n x y = if ∀ q < n, isAnc anc q = true → y q = false then
        ren τ (ren σ.symm fun x => e.mat n x y) x else 0 := by
  obtain ⟨p', e2, τ, m1, m2, m3, m4, m5⟩ := changePermutation_spec (n := n) hV (swapStep_left n)
    (zero := fun e : MEdge => e.p = .term ∧ e.w = 0)
    (fun e h0 τ x y => by simp [Edge.mat, h0.2]) hl ho1 ho2 ho3 he
  obtain ⟨r, r1, r2, r3⟩ := reduceAncillae_spec m2 ha true
  refine ⟨r, τ * σ, ?_, r2, m4, m5, fun x y => ?_⟩
  · unfold finishFunctionality
    simp only [m1, Res.bind, r1]
  · rw [r3, m3]
    have e2 : AncZero anc true 0 n x y ↔ ∀ q < n, isAnc anc q = true → y q = false :=
      ⟨fun h q hq => h q (by omega) hq, fun h q _ hq => h q hq⟩
    simp only [e2]
    have : ren (τ * σ) (ren σ.symm fun x => e.mat n x y) x = e.mat n (x ∘ τ) y := by
      unfold ren
      congr 1
      funext q
      simp [Function.comp]
    rw [this]

theorem functionality_spec {n : ℕ} {D V : ℕ → Prop} {σ : Equiv.Perm ℕ} (hV : ∀ v, V v → v < n)
    (hn : n ≠ 0) {ops : List (Op ℝ)} {init out : Perm} {anc : List Bool} (hg : GoodL D ops)
    (hl : Lay D V σ init σ) (ho1 : (out.map Prod.fst).Nodup) (ho2 : (out.map Prod.snd).Nodup)
    (ho3 : ∀ x ∈ out, D x.1 ∧ V x.2) (ha : anc.length = n) :
    ∃ r F τ, buildFunctionality n ops init out anc = .ok r ∧ MECan n r ∧ ActsL ops F ∧
      Lay D V σ (permAfter out (ops.foldl stepPerm init)) τ ∧ (∀ x ∈ out, τ x.1 = x.2) ∧
      ∀ x y, r.mat n x y = if ∀ q < n, isAnc anc q = true → y q = false then
        ren τ (F (ren σ.symm fun x => if ∀ q < n, x q = y q then 1 else 0)) x else 0 := by
  obtain ⟨e0, i1, i2, i3⟩ := createInitialMatrix_spec anc
  rw [ha] at i2 i3
  obtain ⟨σ', e1, F, k1, k2, k3, k4, k5⟩ := simLoop_spec hV (mulStep_mat n) ops init σ e0
    (fun y => ren σ.symm fun x => e0.mat n x y) hg hl i2 (fun y => (ren_symm σ _).symm)
  obtain ⟨r, τ, r1, r2, r3, r4, r5⟩ := finish_spec (e := e1) hV k3 ho1 ho2 ho3 ha k4
  refine ⟨r, F, τ, ?_, r2, k2, r3, r4, fun x y => ?_⟩
  · unfold buildFunctionality
    rw [if_neg hn, i1]
    simp only [k1, Res.bind]
    exact r1
  · rw [r5]
    by_cases hy : ∀ q < n, isAnc anc q = true → y q = false
    · rw [if_pos hy, if_pos hy]
      have e2 : (fun x => e1.mat n x y) = ren σ' (F (ren σ.symm fun x => e0.mat n x y)) := k5 y
      have e3 : (fun x => e0.mat n x y) = fun x => if ∀ q < n, x q = y q then 1 else 0 := by
        funext x
        rw [i3]
        exact if_congr (and_iff_right hy) rfl rfl
      rw [e2, e3]
      have : ∀ φ, ren σ'.symm (ren σ' φ) = φ := fun φ => by
        have := ren_symm σ'.symm φ
        rwa [Equiv.symm_symm] at this
      rw [this]
    · rw [if_neg hy, if_neg hy]

/-! ### The recursive construction -/

theorem clearBit_mul {d i : ℕ} (h : 2 ^ (d + 1) ∣ i) : clearBit i d = i := by
  unfold clearBit
  obtain ⟨k, rfl⟩ := h
  rw [if_neg]
  rw [Nat.testBit_two_pow_mul]
  simp

theorem or_mul {d i : ℕ} (h : 2 ^ (d + 1) ∣ i) : i ||| 2 ^ d = i + 2 ^ d := by
  obtain ⟨k, rfl⟩ := h
  rw [Nat.two_pow_add_eq_or_of_lt (Nat.pow_lt_pow_right (by omega) (by omega))]

theorem goodL_iff {D : ℕ → Prop} (l : List (Op ℝ)) : GoodL D l ↔ ∀ o ∈ l, Good D o := by
  induction l with
  | nil => simp [GoodL]
  | cons o l ih => rw [GoodL, ih]; simp

theorem mulRes_rep {n : ℕ} {σ σ' σ'' : Equiv.Perm ℕ} {e e' : MEdge} {f f' : State → State}
    (h : Rep2 n σ σ' e f) (h' : Rep2 n σ' σ'' e' f') :
    ∃ r, mulRes e' e = .ok r ∧ Rep2 n σ σ'' r (fun ψ => f' (f ψ)) := by
  obtain ⟨r, h1, h2⟩ := h.mul h'
  exact ⟨r, by unfold mulRes; rw [h1], h2⟩

theorem actsL_singleton {op : Op ℝ} {f : State → State} (h : Acts op f) : ActsL [op] f := by
  intro c
  rw [run_singleton]
  exact h c

theorem recBuild_spec {n : ℕ} {D V : ℕ → Prop} {σ₀ : Equiv.Perm ℕ} (hV : ∀ v, V v → v < n)
    {ops : List (Op ℝ)} (hg : GoodL D ops) (d : ℕ) :
    ∀ (i : ℕ) (p : Perm) (s : List MEdge) (σ : Equiv.Perm ℕ), 2 ^ (d + 1) ∣ i → i < ops.length →
    Lay D V σ₀ p σ →
    ∃ e F σ', recBuild n ops (d + 1) i p s =
        .ok (decide (i + 2 ^ (d + 1) < ops.length),
          ((ops.drop i).take (2 ^ (d + 1))).foldl stepPerm p, e :: s) ∧
      ActsL ((ops.drop i).take (2 ^ (d + 1))) F ∧
      Lay D V σ₀ (((ops.drop i).take (2 ^ (d + 1))).foldl stepPerm p) σ' ∧
      Rep2 n σ σ' e F := by
  rw [goodL_iff] at hg
  induction d with
  | zero =>
    intro i p s σ _ hi hl
    have hop : ops[i]? = some ops[i] := List.getElem?_eq_getElem hi
    obtain ⟨σ1, e, f, h1, h2, h3, h4⟩ := stepDD_spec hl hV (hg _ (List.getElem_mem hi))
    rw [recBuild, hop]
    simp only [h1, Res.bind]
    by_cases hi2 : i + 1 < ops.length
    · have hop2 : ops[i + 1]? = some ops[i + 1] := List.getElem?_eq_getElem hi2
      obtain ⟨σ2, e', f', h1', h2', h3', h4'⟩ := stepDD_spec h4 hV (hg _ (List.getElem_mem hi2))
      obtain ⟨r, r1, r2⟩ := mulRes_rep h3 h3'
      have htake : (ops.drop i).take (2 ^ (0 + 1)) = [ops[i], ops[i + 1]] := by
        rw [List.drop_eq_getElem_cons hi, List.drop_eq_getElem_cons hi2]
        rfl
      rw [htake, hop2]
      simp only [h1', r1]
      refine ⟨r, _, σ2, ?_, actsL_cons h2 (actsL_singleton h2'), h4', r2⟩
      have : decide (i + 1 ≠ ops.length - 1) = decide (i + 2 ^ (0 + 1) < ops.length) := by
        rw [decide_eq_decide]; omega
      rw [this]
      rfl
    · have hop2 : ops[i + 1]? = none := List.getElem?_eq_none (by omega)
      have htake : (ops.drop i).take (2 ^ (0 + 1)) = [ops[i]] := by
        rw [List.drop_eq_getElem_cons hi, List.drop_eq_nil_of_le (by omega)]
        rfl
      rw [htake, hop2]
      refine ⟨e, _, σ1, ?_, actsL_singleton h2, h4, h3⟩
      have : decide (i + 2 ^ (0 + 1) < ops.length) = false := by
        rw [decide_eq_false_iff_not]; omega
      rw [this]
      rfl
  | succ d ih =>
    intro i p s σ hdiv hi hl
    have hpow : 2 ^ (d + 1 + 1) = 2 ^ (d + 1) + 2 ^ (d + 1) := by rw [pow_succ]; ring
    have hpos : 0 < 2 ^ (d + 1) := Nat.pos_of_ne_zero (by simp)
    have hdiv' : 2 ^ (d + 1) ∣ i := (pow_dvd_pow 2 (by omega)).trans hdiv
    obtain ⟨e, F, σ1, k1, k2, k3, k4⟩ := ih i p s σ hdiv' hi hl
    rw [recBuild, clearBit_mul hdiv, or_mul hdiv, k1]
    simp only [Res.bind]
    by_cases hlt : i + 2 ^ (d + 1) < ops.length
    · obtain ⟨e', F', σ2, k1', k2', k3', k4'⟩ := ih (i + 2 ^ (d + 1)) _ (e :: s) σ1
        (dvd_add hdiv' dvd_rfl) hlt k3
      obtain ⟨r, r1, r2⟩ := mulRes_rep k4 k4'
      have htake : (ops.drop i).take (2 ^ (d + 1 + 1)) = (ops.drop i).take (2 ^ (d + 1)) ++
          (ops.drop (i + 2 ^ (d + 1))).take (2 ^ (d + 1)) := by
        rw [hpow, List.take_add, List.drop_drop]
      rw [htake, List.foldl_append]
      rw [if_neg (by simp [hlt]), k1']
      simp only [r1]
      refine ⟨r, _, σ2, ?_, actsL_append k2 k2', k3', r2⟩
      rw [hpow, add_assoc]
    · have htake : (ops.drop i).take (2 ^ (d + 1 + 1)) = (ops.drop i).take (2 ^ (d + 1)) := by
        rw [List.take_of_length_le (by rw [List.length_drop]; omega),
          List.take_of_length_le (by rw [List.length_drop]; omega)]
      rw [htake, if_pos (by simp only [decide_eq_false_iff_not]; exact hlt)]
      refine ⟨e, F, σ1, ?_, k2, k3, k4⟩
      have : decide (i + 2 ^ (d + 1 + 1) < ops.length) = false := by
        rw [decide_eq_false_iff_not]; omega
      rw [this]

/-- Both constructions agree for circuits of at least two operations. -/
theorem functionality_agree {n : ℕ} {D V : ℕ → Prop} {σ : Equiv.Perm ℕ} (hV : ∀ v, V v → v < n)
    (hn : n ≠ 0) {ops : List (Op ℝ)} {init out : Perm} {anc : List Bool} (hg : GoodL D ops)
    (hl : Lay D V σ init σ) (ho1 : (out.map Prod.fst).Nodup) (ho2 : (out.map Prod.snd).Nodup)
    (ho3 : ∀ x ∈ out, D x.1 ∧ V x.2) (ha : anc.length = n) (hsz : 2 ≤ ops.length) :
    buildFunctionalityRecursive n ops init out anc = buildFunctionality n ops init out anc := by
  obtain ⟨r, F, τ, h1, h2, h3, h4, h5, h6⟩ := functionality_spec hV hn hg hl ho1 ho2 ho3 ha
  rw [h1]
  obtain ⟨d, hd⟩ : ∃ d, Nat.clog 2 ops.length = d + 1 := by
    have : 0 < Nat.clog 2 ops.length := Nat.clog_pos (by omega) hsz
    exact ⟨Nat.clog 2 ops.length - 1, by omega⟩
  have hle : ops.length ≤ 2 ^ (d + 1) := by rw [← hd]; exact Nat.le_pow_clog (by omega) _
  obtain ⟨e, G, σ', k1, k2, k3, k4⟩ := recBuild_spec (σ₀ := σ) hV hg d 0 init [] σ (dvd_zero _)
    (by omega) hl
  have htake : (ops.drop 0).take (2 ^ (d + 1)) = ops := by
    rw [List.drop_zero, List.take_of_length_le hle]
  rw [htake] at k1 k2 k3
  obtain ⟨r', τ', m1, m2, m3, m4, m5⟩ := finish_spec hV k3 ho1 ho2 ho3 ha k4.1
  have hr : buildFunctionalityRecursive n ops init out anc = .ok r' := by
    unfold buildFunctionalityRecursive
    rw [if_neg hn]
    match ops, hsz, hd, k1, m1 with
    | a :: b :: l, _, hd, k1, m1 =>
      simp only [hd, k1, Res.bind]
      exact m1
  rw [hr]
  obtain rfl := h3.unique k2
  obtain rfl := h4.unique m3
  have : r' = r := by
    apply mecan_inj m2 h2
    intro x y
    rw [m5, h6]
    by_cases hy : ∀ q < n, isAnc anc q = true → y q = false
    · rw [if_pos hy, if_pos hy]
      have hcol : (fun x => e.mat n x y) =
          ren σ' (F (ren σ.symm fun x => if ∀ q < n, x q = y q then 1 else 0)) := by
        funext x
        rw [← k4.2, ren_symm]
        unfold matVec
        have e1 : ∀ z : Bits, e.mat n x z * (if ∀ q < n, z q = y q then (1 : ℂ) else 0)
            = if ∀ q < n, y q = z q then e.mat n x z else 0 := by
          intro z
          have : (∀ q < n, z q = y q) ↔ ∀ q < n, y q = z q :=
            forall₂_congr fun _ _ => eq_comm
          simp only [this]
          split_ifs <;> simp
        simp only [e1]
        rw [sumB_pick]
        apply mat_congr e n (fun q _ => rfl)
        intro q hq
        unfold low
        rw [if_pos hq]
      rw [hcol]
      have : ∀ φ, ren σ'.symm (ren σ' φ) = φ := fun φ => by
        have := ren_symm σ'.symm φ
        rwa [Equiv.symm_symm] at this
      rw [this]
    · rw [if_neg hy, if_neg hy]
  rw [this]

end MQT.Sim
