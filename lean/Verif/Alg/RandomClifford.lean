/-
Random Clifford circuits.

Models `append1QClifford`, `append2QClifford` and `createRandomCliffordCircuit` (`src/algorithms/RandomCliffordCircuit.cpp`).
The random numbers are given; the compound operations are the lists of their operations.

Not modelled: the generator of the random numbers; the name of the circuit; circuits without qubits (`nq - 1` wraps around).
-/
import Verif.IR.Circuit
import Verif.Props.StdOps

set_option autoImplicit false

namespace MQT.Alg.Clifford

open MQT.IR
open Function (update)

/-! ### Model -/

/-- A gate on the first (`false`) or the second (`true`) of two qubits; `cx b` is controlled by the qubit `b`. -/
inductive Cl
  | h (b : Bool) | s (b : Bool) | sdg (b : Bool) | x (b : Bool) | y (b : Bool) | z (b : Bool) | cx (b : Bool)
  deriving DecidableEq

/-- The operation for the qubits `c` and `t`. -/
def Cl.op (c t : ℕ) : Cl → StdOp ℝ
  | .h b => ⟨.h, [], ∅, [if b then t else c]⟩
  | .s b => ⟨.s, [], ∅, [if b then t else c]⟩
  | .sdg b => ⟨.sdg, [], ∅, [if b then t else c]⟩
  | .x b => ⟨.x, [], ∅, [if b then t else c]⟩
  | .y b => ⟨.y, [], ∅, [if b then t else c]⟩
  | .z b => ⟨.z, [], ∅, [if b then t else c]⟩
  | .cx b => ⟨.x, [], {(if b then t else c, true)}, [if b then c else t]⟩

/-- The Hadamard gates (RandomCliffordCircuit.cpp 29-31, 62-67). -/
def had (i : ℕ) (b : Bool) : List Cl := if i % 2 ≠ 0 then [.h b] else []

/-- The rotations (RandomCliffordCircuit.cpp 34-40, 69-82). -/
def rot (i : ℕ) (b : Bool) : List Cl := if i % 3 = 1 then [.h b, .s b] else if i % 3 = 2 then [.sdg b, .h b] else []

/-- The Pauli gates (RandomCliffordCircuit.cpp 43-49, 185-201). -/
def pau (i : ℕ) (b : Bool) : List Cl := if i = 1 then [.z b] else if i = 2 then [.x b] else if i = 3 then [.y b] else []

/-- `append1QClifford` (RandomCliffordCircuit.cpp 24-51). -/
def one (idx : ℕ) : List Cl :=
  let id := idx % 24
  had (id / 12) false ++ rot (id / 4) false ++ pau (id % 4) false

/-- `append2QClifford` before the Pauli gates (RandomCliffordCircuit.cpp 60-183). -/
def entangler (id : ℕ) : List Cl :=
  if id < 36 then had (id / 9) false ++ had (id / 18) true ++ rot id false ++ rot (id / 3) true
  else if id < 360 then
    let id := id - 36
    had (id / 81) false ++ had (id / 162) true ++ rot id false ++ rot (id / 3) true ++ [.cx false] ++ rot (id / 9) false ++ rot (id / 27) true
  else if id < 684 then
    let id := id - 360
    had (id / 81) false ++ had (id / 162) true ++ rot id false ++ rot (id / 3) true ++ [.cx false, .cx true] ++ rot (id / 9) false
  else
    let id := id - 684
    had (id / 9) false ++ had (id / 18) true ++ rot id false ++ [.cx false, .cx true, .cx false]

/-- `append2QClifford` (RandomCliffordCircuit.cpp 53-204). -/
def two (idx : ℕ) : List Cl :=
  let id := idx % 11520
  entangler (id / 16) ++ (pau (id % 16 % 4) false ++ pau (id % 16 / 4) true)

/-- The operations of an index on two qubits. -/
def ops (l : List Cl) (c t : ℕ) : List (StdOp ℝ) := l.map (Cl.op c t)

/-- `for (i = first; i < nq - 1; i += 2)` (RandomCliffordCircuit.cpp 222-230), given the random numbers of this layer. -/
def brick (nq : ℕ) (rnd : ℕ → ℕ) (i : ℕ) : List (StdOp ℝ) :=
  if i < nq - 1 then ops (two (rnd i)) i (i + 1) ++ brick nq rnd (i + 2) else []
termination_by nq - i

/-- `createRandomCliffordCircuit` (RandomCliffordCircuit.cpp 207-234); `rnd l i` is the random number for the operation on qubit `i`
in layer `l`. -/
def circuit (nq depth : ℕ) (rnd : ℕ → ℕ → ℕ) : List (StdOp ℝ) :=
  (List.range depth).flatMap fun l =>
    if nq = 1 then ops (one (rnd l 0)) 0 1
    else if nq = 2 then ops (two (rnd l 0)) 0 1
    else brick nq (rnd l) (l % 2)

/-! ### Specification: Pauli operators and how gates transform them -/

/-- The operator `i ^ k * Z ^ z0 X ^ x0 ⊗ Z ^ z1 X ^ x1`. -/
structure Pauli where
  k : Fin 4
  x0 : Bool
  z0 : Bool
  x1 : Bool
  z1 : Bool
  deriving DecidableEq

def sgn (b : Bool) : ℂ := if b then -1 else 1

/-- The operator on the qubits `c` and `t`. -/
noncomputable def Pauli.app (c t : ℕ) (p : Pauli) (ψ : State) : State := fun y =>
  Complex.I ^ p.k.val * (sgn (p.z0 && y c) * sgn (p.z1 && y t)) * ψ (update (update y c (p.x0 ^^ y c)) t (p.x1 ^^ y t))

/-- The Pauli operator with the qubits exchanged. -/
def Pauli.swap (p : Pauli) : Pauli := ⟨p.k, p.x1, p.z1, p.x0, p.z0⟩

/-- What a gate on the first qubit makes of a Pauli operator: `U P = P' U`. -/
def Cl.first (p : Pauli) : Cl → Pauli
  | .h _ => ⟨p.k + (if p.x0 && p.z0 then 2 else 0), p.z0, p.x0, p.x1, p.z1⟩
  | .s _ => ⟨p.k + (if p.x0 then 3 else 0), p.x0, p.z0 ^^ p.x0, p.x1, p.z1⟩
  | .sdg _ => ⟨p.k + (if p.x0 then 1 else 0), p.x0, p.z0 ^^ p.x0, p.x1, p.z1⟩
  | .x _ => ⟨p.k + (if p.z0 then 2 else 0), p.x0, p.z0, p.x1, p.z1⟩
  | .y _ => ⟨p.k + (if p.x0 ^^ p.z0 then 2 else 0), p.x0, p.z0, p.x1, p.z1⟩
  | .z _ => ⟨p.k + (if p.x0 then 2 else 0), p.x0, p.z0, p.x1, p.z1⟩
  | .cx _ => ⟨p.k, p.x0, p.z0 ^^ p.z1, p.x1 ^^ p.x0, p.z1⟩

def Cl.onSecond : Cl → Bool
  | .h b | .s b | .sdg b | .x b | .y b | .z b | .cx b => b

/-- What a gate makes of a Pauli operator. -/
def Cl.conj (g : Cl) (p : Pauli) : Pauli := if g.onSecond then (g.first p.swap).swap else g.first p

/-- What a circuit makes of a Pauli operator. -/
def image (l : List Cl) (p : Pauli) : Pauli := l.foldl (fun p g => g.conj p) p

/-! ### Gates and Pauli operators -/

variable {c t : ℕ}

theorem Pauli.app_swap (h : c ≠ t) (p : Pauli) (ψ : State) : p.app c t ψ = p.swap.app t c ψ := by
  funext y
  unfold Pauli.app Pauli.swap
  rw [Function.update_comm h]
  ring

/-- A gate on the first qubit, given by its matrix. -/
theorem app1_pauli (h : c ≠ t) (M : Mat1) (p q : Pauli) (hx : q.x1 = p.x1) (hz : q.z1 = p.z1)
    (hM : ∀ r b, M r (p.x0 ^^ b) * (Complex.I ^ p.k.val * sgn (p.z0 && (p.x0 ^^ b))) =
      Complex.I ^ q.k.val * sgn (q.z0 && r) * M (q.x0 ^^ r) b) (ψ : State) :
    app1 M c (p.app c t ψ) = q.app c t (app1 M c ψ) := by
  funext y
  have hu : ∀ b b', update (update (update y c b) c b') t (p.x1 ^^ y t) = update (update y c b') t (p.x1 ^^ y t) := fun b b' => by
    rw [Function.update_idem]
  have hv : ∀ b b', update (update (update y c b) t (p.x1 ^^ y t)) c b' = update (update y c b') t (p.x1 ^^ y t) := fun b b' => by
    rw [Function.update_comm h.symm, Function.update_idem]
  have hc : ∀ b, update (update y c b) t (p.x1 ^^ y t) c = b := fun b => by
    rw [Function.update_of_ne h, Function.update_self]
  unfold app1 Pauli.app
  simp only [hx, hz, Function.update_self, Function.update_of_ne h.symm, hu, hv, hc, Fintype.sum_bool]
  have h1 := hM (y c) true
  have h2 := hM (y c) false
  cases hb : p.x0 <;> simp only [hb, Bool.false_xor, Bool.true_xor, Bool.xor_false, Bool.xor_true, Bool.not_true, Bool.not_false] at h1 h2 ⊢ <;>
    linear_combination (sgn (p.z1 && y t) * ψ (update (update y c true) t (p.x1 ^^ y t))) * h1 +
      (sgn (p.z1 && y t) * ψ (update (update y c false) t (p.x1 ^^ y t))) * h2

theorem cx_eq (ψ : State) (y : Bits) :
    ctl {(c, true)} (app1 (mat1 0 1 1 0) t) ψ y = ψ (update y t (y c ^^ y t)) := by
  unfold ctl Sat app1
  simp only [Finset.mem_singleton, forall_eq, Fintype.sum_bool]
  cases hc : y c
  · simp
  · cases ht : y t <;> simp [mat1]

theorem cx_pauli (h : c ≠ t) (p : Pauli) (b : Bool) (ψ : State) :
    ctl {(c, true)} (app1 (mat1 0 1 1 0) t) (p.app c t ψ) = ((Cl.cx b).first p).app c t (ctl {(c, true)} (app1 (mat1 0 1 1 0) t) ψ) := by
  funext y
  rw [cx_eq]
  unfold Pauli.app Cl.first
  simp only
  rw [cx_eq]
  simp only [Function.update_self, Function.update_of_ne h]
  have e : update (update (update y t (y c ^^ y t)) c (p.x0 ^^ y c)) t (p.x1 ^^ (y c ^^ y t)) =
      update (update (update y c (p.x0 ^^ y c)) t (p.x1 ^^ p.x0 ^^ y t)) t ((p.x0 ^^ y c) ^^ (p.x1 ^^ p.x0 ^^ y t)) := by
    rw [Function.update_idem, Function.update_comm h.symm, Function.update_idem]
    congr 1
    cases p.x0 <;> cases p.x1 <;> cases y c <;> cases y t <;> rfl
  rw [e]
  congr 2
  cases p.z0 <;> cases p.z1 <;> cases y c <;> cases y t <;> simp [sgn]

/-- The operation on the first qubit. -/
noncomputable def Cl.den (g : Cl) (c t : ℕ) : State → State :=
  match g with
  | .h _ => app1 (mat1 ⟨r2, 0⟩ ⟨r2, 0⟩ ⟨r2, 0⟩ ⟨-r2, 0⟩) c
  | .s _ => app1 (mat1 1 0 0 ⟨0, 1⟩) c
  | .sdg _ => app1 (mat1 1 0 0 ⟨0, -1⟩) c
  | .x _ => app1 (mat1 0 1 1 0) c
  | .y _ => app1 (mat1 0 ⟨0, -1⟩ ⟨0, 1⟩ 0) c
  | .z _ => app1 (mat1 1 0 0 (-1)) c
  | .cx _ => ctl {(c, true)} (app1 (mat1 0 1 1 0) t)

theorem I_pow_two (k : Fin 4) : Complex.I ^ (k + 2).val = - Complex.I ^ k.val := by
  fin_cases k <;> simp [pow_succ]

theorem I_pow_one (k : Fin 4) : Complex.I ^ (k + 1).val = Complex.I * Complex.I ^ k.val := by
  fin_cases k <;> simp [pow_succ]

theorem I_pow_three (k : Fin 4) : Complex.I ^ (k + 3).val = - Complex.I * Complex.I ^ k.val := by
  fin_cases k <;> simp [pow_succ]

theorem mk_I : (⟨0, 1⟩ : ℂ) = Complex.I := rfl
theorem mk_nI : (⟨0, -1⟩ : ℂ) = - Complex.I := by
  apply Complex.ext <;> simp
theorem mk_nr (r : ℝ) : (⟨-r, 0⟩ : ℂ) = - ⟨r, 0⟩ := by
  apply Complex.ext <;> simp

theorem den_pauli (h : c ≠ t) (g : Cl) (p : Pauli) (ψ : State) : g.den c t (p.app c t ψ) = (g.first p).app c t (g.den c t ψ) := by
  have hI : Complex.I * Complex.I = -1 := Complex.I_mul_I
  cases g with
  | cx b => exact cx_pauli h p b ψ
  | _ =>
    refine app1_pauli h _ p _ ?_ ?_ ?_ ψ
    · rfl
    · rfl
    intro r b
    obtain ⟨k, x0, z0, x1, z1⟩ := p
    unfold Cl.first
    cases x0 <;> cases z0 <;> cases r <;> cases b <;>
      simp only [mat1, sgn, I_pow_two, I_pow_one, I_pow_three, mk_I, mk_nI, mk_nr, Bool.false_xor, Bool.true_xor, Bool.xor_false, Bool.xor_true,
        Bool.not_true, Bool.not_false, Bool.and_true, Bool.and_false, Bool.true_and, Bool.false_and, if_true, if_false, Bool.false_eq_true,
        add_zero, mul_zero, zero_mul, mul_one, one_mul, mul_neg, neg_mul, neg_neg, neg_zero] <;>
      first
        | rfl
        | ring1
        | (linear_combination (Complex.I ^ k.val) * hI)
        | (linear_combination (-Complex.I ^ k.val) * hI)

theorem op_denote (g : Cl) (c t : ℕ) : (g.op c t).denote = some (if g.onSecond then g.den t c else g.den c t) := by
  cases g with
  | cx b => cases b <;> exact StdOp.denote_single_of rfl rfl rfl
  | _ b =>
    cases b <;> (
      refine (StdOp.denote_single_of rfl rfl rfl).trans ?_
      rw [show (Cl.op c t _).controls = ∅ from rfl, ctl_empty]
      rfl)

theorem op_pauli (h : c ≠ t) (g : Cl) : ∃ f, (g.op c t).denote = some f ∧ ∀ p ψ, f (p.app c t ψ) = (g.conj p).app c t (f ψ) := by
  refine ⟨_, op_denote g c t, fun p ψ => ?_⟩
  unfold Cl.conj
  cases g.onSecond
  · exact den_pauli h g p ψ
  · simp only [if_true]
    rw [Pauli.app_swap h, den_pauli h.symm, Pauli.app_swap h.symm]

theorem ops_pauli (h : c ≠ t) : ∀ l : List Cl, ∃ f, denoteSeq (ops l c t) = some f ∧
    ∀ p ψ, f (p.app c t ψ) = (image l p).app c t (f ψ)
  | [] => ⟨_, rfl, fun _ _ => rfl⟩
  | g :: l => by
    obtain ⟨f, hf, h1⟩ := op_pauli h g
    obtain ⟨r, hr, h2⟩ := ops_pauli h l
    refine ⟨_, denoteSeq_cons_of hf hr, fun p ψ => ?_⟩
    simp only [h1, h2]
    rfl

theorem op_wf (h : c ≠ t) (g : Cl) : (g.op c t).WF := by
  refine ⟨?_, ?_⟩
  · cases g <;> simp [Cl.op]
  · cases g with
    | cx b => cases b <;> simp [Cl.op, ctrlQubits, h, h.symm]
    | _ b => simp [Cl.op, ctrlQubits]

theorem ops_surj (h : c ≠ t) : ∀ (l : List Cl) (f : State → State), denoteSeq (ops l c t) = some f → ∀ φ, ∃ ψ, f ψ = φ
  | [], f, hf, φ => by
    cases hf
    exact ⟨φ, rfl⟩
  | g :: l, f, hf, φ => by
    obtain ⟨a, ha, -⟩ := op_pauli h g
    obtain ⟨r, hr, -⟩ := ops_pauli h l
    have e : denoteSeq (ops (g :: l) c t) = some _ := denoteSeq_cons_of ha hr
    rw [e] at hf
    cases hf
    obtain ⟨ψ, hψ⟩ := ops_surj h l r hr φ
    obtain ⟨_, a', -, -, -, h2⟩ := c19_invert_undoes _ (op_wf h g) a ha
    exact ⟨a' ψ, by simp only [h2, hψ]⟩

/-! ### Circuits that are equal up to a factor -/

/-- Two functions on states are equal up to a factor. -/
def Same (f g : State → State) : Prop := ∃ z : ℂ, ∀ ψ y, f ψ y = z * g ψ y

theorem Pauli.app_smul (p : Pauli) (z : ℂ) (ψ : State) : p.app c t (fun y => z * ψ y) = fun y => z * p.app c t ψ y := by
  funext y
  unfold Pauli.app
  ring

theorem I_pow_inj : ∀ k l : Fin 4, Complex.I ^ k.val = Complex.I ^ l.val → k = l := by
  have h1 : (1 : ℂ) ≠ -1 := by norm_num
  have h2 : Complex.I ≠ 1 := fun h => by simpa using congrArg Complex.im h
  have h3 : Complex.I ≠ -1 := fun h => by simpa using congrArg Complex.im h
  have h4 : Complex.I ≠ -Complex.I := fun h => by
    have := congrArg Complex.im h
    norm_num at this
  have h5 : (1 : ℂ) ≠ -Complex.I := fun h => by simpa using congrArg Complex.im h
  intro k l h
  fin_cases k <;> fin_cases l <;> simp [pow_succ] at h ⊢ <;>
    first
      | exact h1 h
      | exact h1 h.symm
      | exact h2 h
      | exact h2 h.symm
      | exact h3 h
      | exact h3 h.symm
      | exact h4 h
      | exact h4 h.symm
      | exact h5 h
      | exact h5 h.symm

theorem Pauli.ext_app (h : c ≠ t) (p q : Pauli) (e : ∀ φ : State, p.app c t φ = q.app c t φ) : p = q := by
  have e1 := fun a b : Bool => congrFun (e fun _ => 1) (update (update (fun _ => false) c a) t b)
  have e2 := congrFun (e fun y => if y c then 1 else 2) fun _ => false
  have e3 := congrFun (e fun y => if y t then 1 else 2) fun _ => false
  unfold Pauli.app at e1 e2 e3
  simp only [Function.update_self, Function.update_of_ne h, mul_one] at e1 e2 e3
  obtain ⟨k, x0, z0, x1, z1⟩ := p
  obtain ⟨k', x0', z0', x1', z1'⟩ := q
  have hk : k = k' := I_pow_inj _ _ (by simpa [sgn] using e1 false false)
  subst hk
  have h0 : Complex.I ^ k.val ≠ 0 := pow_ne_zero _ Complex.I_ne_zero
  have ez := e1 true false
  have et := e1 false true
  simp only [Bool.and_true, Bool.and_false, sgn, Bool.false_eq_true, if_false, mul_one, one_mul, mul_right_inj' h0, Bool.xor_false] at ez et e2 e3
  have hz : z0 = z0' := by
    cases z0 <;> cases z0' <;> first | rfl | (exfalso; norm_num at ez)
  have hz' : z1 = z1' := by
    cases z1 <;> cases z1' <;> first | rfl | (exfalso; norm_num at et)
  have hx : x0 = x0' := by
    cases x0 <;> cases x0' <;> first | rfl | (exfalso; norm_num at e2)
  have hx' : x1 = x1' := by
    cases x1 <;> cases x1' <;> first | rfl | (exfalso; norm_num at e3)
  subst hz hz' hx hx'
  rfl

/-- Circuits that are equal up to a factor transform Pauli operators alike. -/
theorem Same.image (h : c ≠ t) {l m : List Cl} {f g : State → State} (hf : denoteSeq (ops l c t) = some f)
    (hg : denoteSeq (ops m c t) = some g) (hs : Same f g) (p : Pauli) : image l p = Clifford.image m p := by
  obtain ⟨z, hz⟩ := hs
  obtain ⟨f', hf', h1⟩ := ops_pauli h l
  obtain ⟨g', hg', h2⟩ := ops_pauli h m
  rw [hf] at hf'
  rw [hg] at hg'
  cases hf'
  cases hg'
  have hz' : ∀ ψ, f ψ = fun y => z * g ψ y := fun ψ => funext (hz ψ)
  refine Pauli.ext_app h _ _ fun φ => ?_
  obtain ⟨ψ, rfl⟩ := ops_surj h l f hf φ
  rw [← h1, hz' (p.app c t ψ), h2, hz' ψ, Pauli.app_smul]

end MQT.Alg.Clifford
