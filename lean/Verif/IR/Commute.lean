/-
Locality of operations and soundness of the commutation test.

Everything here is about the reference semantics of `Verif.IR.Semantics` and the model of
`StandardOperation::commutesAtQubit` (`src/ir/operations/StandardOperation.cpp` 497-558) in
`Verif.IR.StdOp`.
-/
import Verif.IR.StdOp

set_option autoImplicit false
set_option linter.unusedSectionVars false

namespace MQT.IR

open Real OpType
open Function (update)

/-- `y` agrees with `x` outside `T`. -/
def AgreeOff (T : List ℕ) (x y : Bits) : Prop := ∀ q, q ∉ T → y q = x q

theorem AgreeOff.refl (T : List ℕ) (x : Bits) : AgreeOff T x x := fun _ _ => rfl

/-- `A` reads and writes only the qubits of `T`: the new amplitude at `x` depends only on the old
amplitudes at basis states that agree with `x` outside `T`; and it is homogeneous. -/
structure Local (T : List ℕ) (A : State → State) : Prop where
  congr : ∀ (ψ φ : State) (x : Bits), (∀ y, AgreeOff T x y → ψ y = φ y) → A ψ x = A φ x
  smul : ∀ (c : ℂ) (ψ : State), A (fun x => c * ψ x) = fun x => c * A ψ x

theorem agreeOff_update {T : List ℕ} {x y : Bits} (h : AgreeOff T x y) {t : ℕ} (ht : t ∈ T)
    (b : Bool) : AgreeOff T x (update y t b) := by
  intro q hq
  rw [Function.update_of_ne (by rintro rfl; exact hq ht)]
  exact h q hq

theorem app1_isLocal (M : Mat1) (t : ℕ) : Local [t] (app1 M t) := by
  constructor
  · intro ψ φ x h
    unfold app1
    refine Finset.sum_congr rfl fun b _ => ?_
    rw [h _ (agreeOff_update (AgreeOff.refl _ _) (by simp) b)]
  · intro c ψ
    funext x
    simp only [app1, Finset.mul_sum]
    exact Finset.sum_congr rfl fun b _ => by ring

theorem app2_isLocal (M : Mat2) (t0 t1 : ℕ) : Local [t0, t1] (app2 M t0 t1) := by
  constructor
  · intro ψ φ x h
    unfold app2
    refine Finset.sum_congr rfl fun b _ => ?_
    rw [h _ (agreeOff_update (agreeOff_update (AgreeOff.refl _ _) (by simp) b.1) (by simp) b.2)]
  · intro c ψ
    funext x
    simp only [app2, Finset.mul_sum]
    exact Finset.sum_congr rfl fun b _ => by ring

theorem ctl_isLocal {T : List ℕ} {A : State → State} (h : Local T A) (cs : Finset Ctrl) :
    Local T (ctl cs A) := by
  constructor
  · intro ψ φ x hx
    unfold ctl
    rw [h.congr ψ φ x hx, hx x (AgreeOff.refl _ _)]
  · intro c ψ
    funext x
    simp only [ctl, h.smul]
    split_ifs <;> rfl

theorem phase_isLocal (T : List ℕ) (z : ℂ) : Local T (phase z) := by
  constructor
  · intro ψ φ x hx
    unfold phase
    rw [hx x (AgreeOff.refl _ _)]
  · intro c ψ
    funext x
    simp only [phase]
    ring

/-- `A` multiplies each amplitude by a factor that depends only on the qubits in `S`. -/
def DiagOn (S : Finset ℕ) (A : State → State) : Prop :=
  ∃ d : Bits → ℂ, (∀ ψ x, A ψ x = d x * ψ x) ∧ ∀ x y, (∀ q ∈ S, y q = x q) → d y = d x

theorem sat_agree {cs : Finset Ctrl} {x y : Bits} (h : ∀ q ∈ ctrlQubits cs, y q = x q) :
    Sat cs y ↔ Sat cs x := by
  unfold Sat
  refine forall₂_congr fun c hc => ?_
  rw [h c.1 (Finset.mem_image_of_mem _ hc)]

theorem DiagOn.mono {S S' : Finset ℕ} {A : State → State} (h : DiagOn S A) (hs : S ⊆ S') :
    DiagOn S' A := by
  obtain ⟨d, h1, h2⟩ := h
  exact ⟨d, h1, fun x y hq => h2 x y fun q hqS => hq q (hs hqS)⟩

theorem DiagOn.ctl {S : Finset ℕ} {A : State → State} (h : DiagOn S A) (cs : Finset Ctrl) :
    DiagOn (S ∪ ctrlQubits cs) (ctl cs A) := by
  obtain ⟨d, h1, h2⟩ := h
  refine ⟨fun x => if Sat cs x then d x else 1, ?_, ?_⟩
  · intro ψ x
    simp only [MQT.IR.ctl]
    split_ifs
    · exact h1 ψ x
    · rw [one_mul]
  · intro x y hq
    have e : Sat cs y ↔ Sat cs x := sat_agree fun q hqc => hq q (Finset.mem_union_right _ hqc)
    simp only [e, h2 x y fun q hqS => hq q (Finset.mem_union_left _ hqS)]

theorem DiagOn.comm {S S' : Finset ℕ} {A B : State → State} (hA : DiagOn S A) (hB : DiagOn S' B)
    (ψ : State) : A (B ψ) = B (A ψ) := by
  obtain ⟨d, h1, -⟩ := hA
  obtain ⟨e, h2, -⟩ := hB
  funext x
  rw [h1, h2, h2, h1]
  ring

theorem DiagOn.comm_local {S : Finset ℕ} {T : List ℕ} {A B : State → State} (hA : DiagOn S A)
    (hB : Local T B) (hd : ∀ q ∈ T, q ∉ S) (ψ : State) : A (B ψ) = B (A ψ) := by
  obtain ⟨d, h1, h2⟩ := hA
  funext x
  rw [h1]
  have : B (A ψ) x = B (fun y => d x * ψ y) x := by
    apply hB.congr
    intro y hy
    rw [h1, h2 x y]
    intro q hq
    exact hy q fun hT => hd q hT hq
  rw [this, hB.smul]

/-- Controlled versions of two commuting local operations commute when no target of one is a
control of the other. -/
theorem ctl_comm {T T' : List ℕ} {A B : State → State} {cs cs' : Finset Ctrl}
    (hA : Local T A) (hB : Local T' B) (hAB : ∀ ψ, A (B ψ) = B (A ψ))
    (h1 : ∀ q ∈ T, q ∉ ctrlQubits cs') (h2 : ∀ q ∈ T', q ∉ ctrlQubits cs) (ψ : State) :
    ctl cs A (ctl cs' B ψ) = ctl cs' B (ctl cs A ψ) := by
  have sA : ∀ {x y : Bits}, AgreeOff T x y → (Sat cs' y ↔ Sat cs' x) := fun hy =>
    sat_agree fun q hq => hy q fun hT => h1 q hT hq
  have sB : ∀ {x y : Bits}, AgreeOff T' x y → (Sat cs y ↔ Sat cs x) := fun hy =>
    sat_agree fun q hq => hy q fun hT => h2 q hT hq
  funext x
  by_cases a : Sat cs x <;> by_cases b : Sat cs' x
  · have e1 : ctl cs A (ctl cs' B ψ) x = A (B ψ) x := by
      rw [ctl, if_pos a]
      exact hA.congr _ _ _ fun y hy => by rw [ctl, if_pos ((sA hy).2 b)]
    have e2 : ctl cs' B (ctl cs A ψ) x = B (A ψ) x := by
      rw [ctl, if_pos b]
      exact hB.congr _ _ _ fun y hy => by rw [ctl, if_pos ((sB hy).2 a)]
    rw [e1, e2, hAB]
  · have e1 : ctl cs A (ctl cs' B ψ) x = A ψ x := by
      rw [ctl, if_pos a]
      exact hA.congr _ _ _ fun y hy => by rw [ctl, if_neg (mt (sA hy).1 b)]
    rw [e1, ctl, if_neg b, ctl, if_pos a]
  · have e2 : ctl cs' B (ctl cs A ψ) x = B ψ x := by
      rw [ctl, if_pos b]
      exact hB.congr _ _ _ fun y hy => by rw [ctl, if_neg (mt (sB hy).1 a)]
    rw [e2, ctl, if_neg a, ctl, if_pos b]
  · simp only [ctl, if_neg a, if_neg b]

theorem app1_app1_comm (M N : Mat1) {s t : ℕ} (h : s ≠ t) (ψ : State) :
    app1 M s (app1 N t ψ) = app1 N t (app1 M s ψ) := by
  funext x
  simp only [app1, Finset.mul_sum, Function.update_of_ne h, Function.update_of_ne (Ne.symm h)]
  rw [Finset.sum_comm]
  refine Finset.sum_congr rfl fun a _ => Finset.sum_congr rfl fun b _ => ?_
  rw [Function.update_comm h]
  ring

theorem app1_app2_comm (M : Mat1) (N : Mat2) {s t0 t1 : ℕ} (h0 : s ≠ t0) (h1 : s ≠ t1)
    (ψ : State) : app1 M s (app2 N t0 t1 ψ) = app2 N t0 t1 (app1 M s ψ) := by
  funext x
  simp only [app1, app2, Finset.mul_sum, Function.update_of_ne h0, Function.update_of_ne h1,
    Function.update_of_ne (Ne.symm h0), Function.update_of_ne (Ne.symm h1)]
  rw [Finset.sum_comm]
  refine Finset.sum_congr rfl fun a _ => Finset.sum_congr rfl fun b _ => ?_
  rw [Function.update_comm h0, Function.update_comm h1]
  ring

theorem app2_app2_comm (M N : Mat2) {s0 s1 t0 t1 : ℕ} (h00 : s0 ≠ t0) (h01 : s0 ≠ t1)
    (h10 : s1 ≠ t0) (h11 : s1 ≠ t1) (ψ : State) :
    app2 M s0 s1 (app2 N t0 t1 ψ) = app2 N t0 t1 (app2 M s0 s1 ψ) := by
  funext x
  simp only [app2, Finset.mul_sum, Function.update_of_ne h00, Function.update_of_ne h01,
    Function.update_of_ne h10, Function.update_of_ne h11,
    Function.update_of_ne (Ne.symm h00), Function.update_of_ne (Ne.symm h01),
    Function.update_of_ne (Ne.symm h10), Function.update_of_ne (Ne.symm h11)]
  rw [Finset.sum_comm]
  refine Finset.sum_congr rfl fun a _ => Finset.sum_congr rfl fun b _ => ?_
  rw [Function.update_comm h10, Function.update_comm h11, Function.update_comm h00,
    Function.update_comm h01]
  ring

/-! ### Flagged types are diagonal -/

/-- `M` has no entries off the diagonal. -/
def IsDiagM {n : Type} (M : Matrix n n ℂ) : Prop := ∀ a b, a ≠ b → M a b = 0

theorem gate1_diag {ty : OpType} (h : ty.isDiagonal = true) {ps : List ℝ} {M : Mat1}
    (hM : gate1 ty ps = some M) : IsDiagM M := by
  have key : ∀ a d : ℂ, IsDiagM (mat1 a 0 0 d) := by
    intro a d r c hrc
    cases r <;> cases c <;> first | rfl | exact absurd rfl hrc
  cases ty <;> first | (exact absurd h (by decide)) |
    simp only [gate1, Option.some.injEq, Option.map_eq_some_iff, reduceCtorEq] at hM
  all_goals first | (subst hM; exact key _ _) | (obtain ⟨a, -, rfl⟩ := hM; exact key _ _)

theorem gate2_diag {ty : OpType} (h : ty.isDiagonal = true) {ps : List ℝ} {M : Mat2}
    (hM : gate2 ty ps = some M) : IsDiagM M := by
  cases ty <;> first | (exact absurd h (by decide)) |
    simp only [gate2, Option.map_eq_some_iff, reduceCtorEq] at hM
  obtain ⟨a, -, rfl⟩ := hM
  rintro ⟨r0, r1⟩ ⟨c0, c1⟩ hrc
  cases r0 <;> cases r1 <;> cases c0 <;> cases c1 <;>
    first | rfl | exact absurd rfl hrc

theorem app1_diag {M : Mat1} (h : IsDiagM M) (t : ℕ) : DiagOn {t} (app1 M t) := by
  refine ⟨fun x => M (x t) (x t), ?_, ?_⟩
  · intro ψ x
    unfold app1
    rw [Finset.sum_eq_single (x t)]
    · rw [Function.update_eq_self]
    · intro b _ hb; rw [h _ _ (Ne.symm hb), zero_mul]
    · intro h; exact absurd (Finset.mem_univ _) h
  · intro x y hq
    simp only [hq t (by simp)]

theorem app2_diag {M : Mat2} (h : IsDiagM M) (t0 t1 : ℕ) : DiagOn {t0, t1} (app2 M t0 t1) := by
  refine ⟨fun x => M (x t0, x t1) (x t0, x t1), ?_, ?_⟩
  · intro ψ x
    unfold app2
    rw [Finset.sum_eq_single (x t0, x t1)]
    · simp only [Function.update_eq_self]
    · intro b _ hb; rw [h _ _ (Ne.symm hb), zero_mul]
    · intro h; exact absurd (Finset.mem_univ _) h
  · intro x y hq
    simp only [hq t0 (by simp), hq t1 (by simp)]

namespace StdOp

/-- Every operation with a meaning touches only its targets. -/
theorem denote_local {o : StdOp ℝ} {f : State → State} (h : o.denote = some f) :
    Local o.targets f := by
  rcases denote_cases h with ⟨hb, rfl⟩ | ⟨hg, θ, h1, rfl⟩ | ⟨hs, q, M, h1, h2, rfl⟩ |
    ⟨ht, q0, q1, M, h1, h2, rfl⟩
  · exact ⟨fun ψ φ x hx => hx x (AgreeOff.refl _ _), fun _ _ => rfl⟩
  · exact ctl_isLocal (phase_isLocal _ _) _
  · rw [h1]; exact ctl_isLocal (app1_isLocal _ _) _
  · rw [h1]; exact ctl_isLocal (app2_isLocal _ _ _) _

/-- Flagged operations are diagonal on the qubits they use. -/
theorem denote_diag {o : StdOp ℝ} {f : State → State} (h : o.denote = some f)
    (hd : o.type.isDiagonal = true) : DiagOn o.used f := by
  rcases denote_cases h with ⟨hb, rfl⟩ | ⟨hg, θ, h1, rfl⟩ | ⟨hs, q, M, h1, h2, rfl⟩ |
    ⟨ht, q0, q1, M, h1, h2, rfl⟩
  · exact ⟨fun _ => 1, fun ψ x => (one_mul _).symm, fun _ _ _ => rfl⟩
  · rw [hg] at hd; exact absurd hd (by decide)
  · refine ((app1_diag (gate1_diag hd h2) q).ctl o.controls).mono ?_
    unfold used; rw [h1]; simp
  · refine ((app2_diag (gate2_diag hd h2) q0 q1).ctl o.controls).mono ?_
    unfold used; rw [h1]; simp

/-- A (controlled) global phase is diagonal on its control qubits. -/
theorem denote_gphase_diag {o : StdOp ℝ} {f : State → State} (h : o.denote = some f)
    (hg : o.type = gphase) : DiagOn (ctrlQubits o.controls) f := by
  rw [denote_gphase hg, Option.map_eq_some_iff] at h
  obtain ⟨θ, -, rfl⟩ := h
  have : DiagOn ∅ (phase ⟨cos θ, sin θ⟩) := ⟨fun _ => ⟨cos θ, sin θ⟩, fun _ _ => rfl, fun _ _ _ => rfl⟩
  exact (this.ctl o.controls).mono (by simp)

/-! ### Same-type gates with at most one parameter commute -/

theorem rx_comm (a b : ℝ) : rxMat a * rxMat b = rxMat b * rxMat a := by
  unfold rxMat; rw [mat1_mul, mat1_mul]; apply mat1_congr <;> ring
theorem ry_comm (a b : ℝ) : ryMat a * ryMat b = ryMat b * ryMat a := by
  unfold ryMat; rw [mat1_mul, mat1_mul]; apply mat1_congr <;> cplx <;> ring
theorem rz_comm (a b : ℝ) : rzMat a * rzMat b = rzMat b * rzMat a := by
  unfold rzMat; rw [mat1_mul, mat1_mul]; apply mat1_congr <;> ring
theorem p_comm (a b : ℝ) : pMat a * pMat b = pMat b * pMat a := by
  unfold pMat; rw [mat1_mul, mat1_mul]; apply mat1_congr <;> ring
theorem rxx_comm (a b : ℝ) : rxxMat a * rxxMat b = rxxMat b * rxxMat a := by
  unfold rxxMat; dsimp only; rw [mat2_mul, mat2_mul]; apply mat2_congr <;> ring
theorem ryy_comm (a b : ℝ) : ryyMat a * ryyMat b = ryyMat b * ryyMat a := by
  unfold ryyMat; dsimp only; rw [mat2_mul, mat2_mul]; apply mat2_congr <;> ring
theorem rzz_comm (a b : ℝ) : rzzMat a * rzzMat b = rzzMat b * rzzMat a := by
  unfold rzzMat; dsimp only; rw [mat2_mul, mat2_mul]; apply mat2_congr <;> ring
theorem rzx_comm (a b : ℝ) : rzxMat a * rzxMat b = rzxMat b * rzxMat a := by
  unfold rzxMat; dsimp only; rw [mat2_mul, mat2_mul]; apply mat2_congr <;> ring

theorem gate1_comm {ty : OpType} {ps ps' : List ℝ} {M N : Mat1} (hl : ps.length ≤ 1)
    (hM : gate1 ty ps = some M) (hN : gate1 ty ps' = some N) : M * N = N * M := by
  cases ty <;> simp only [gate1, Option.some.injEq, Option.map_eq_some_iff, reduceCtorEq] at hM hN
  case u =>
    match ps, hl with
    | [], _ => simp at hM
    | [_], _ => simp at hM
  case u2 =>
    match ps, hl with
    | [], _ => simp at hM
    | [_], _ => simp at hM
  case p => obtain ⟨a, -, rfl⟩ := hM; obtain ⟨b, -, rfl⟩ := hN; exact p_comm a b
  case rx => obtain ⟨a, -, rfl⟩ := hM; obtain ⟨b, -, rfl⟩ := hN; exact rx_comm a b
  case ry => obtain ⟨a, -, rfl⟩ := hM; obtain ⟨b, -, rfl⟩ := hN; exact ry_comm a b
  case rz => obtain ⟨a, -, rfl⟩ := hM; obtain ⟨b, -, rfl⟩ := hN; exact rz_comm a b
  all_goals rw [← hM, ← hN]

theorem gate2_comm {ty : OpType} {ps ps' : List ℝ} {M N : Mat2} (hl : ps.length ≤ 1)
    (hM : gate2 ty ps = some M) (hN : gate2 ty ps' = some N) : M * N = N * M := by
  cases ty <;> simp only [gate2, Option.some.injEq, Option.map_eq_some_iff, reduceCtorEq] at hM hN
  case xxminusyy =>
    match ps, hl with
    | [], _ => simp at hM
    | [_], _ => simp at hM
  case xxplusyy =>
    match ps, hl with
    | [], _ => simp at hM
    | [_], _ => simp at hM
  case rxx => obtain ⟨a, -, rfl⟩ := hM; obtain ⟨b, -, rfl⟩ := hN; exact rxx_comm a b
  case ryy => obtain ⟨a, -, rfl⟩ := hM; obtain ⟨b, -, rfl⟩ := hN; exact ryy_comm a b
  case rzz => obtain ⟨a, -, rfl⟩ := hM; obtain ⟨b, -, rfl⟩ := hN; exact rzz_comm a b
  case rzx => obtain ⟨a, -, rfl⟩ := hM; obtain ⟨b, -, rfl⟩ := hN; exact rzx_comm a b
  all_goals rw [← hM, ← hN]

/-- An operation that is neither barrier nor global phase is a controlled local operation. -/
theorem denote_core {o : StdOp ℝ} {f : State → State} (h : o.denote = some f)
    (hb : o.type ≠ barrier) (hg : o.type ≠ gphase) :
    ∃ A, f = ctl o.controls A ∧ Local o.targets A ∧
      ((∃ q M, o.targets = [q] ∧ A = app1 M q ∧ gate1 o.type o.params = some M ∧
          o.type.isSingleQubitGate = true) ∨
       (∃ q0 q1 M, o.targets = [q0, q1] ∧ A = app2 M q0 q1 ∧ gate2 o.type o.params = some M ∧
          o.type.isTwoQubitGate = true)) := by
  rcases denote_cases h with ⟨hb', -⟩ | ⟨hg', -⟩ | ⟨hs, q, M, h1, h2, rfl⟩ |
    ⟨ht, q0, q1, M, h1, h2, rfl⟩
  · exact absurd hb' hb
  · exact absurd hg' hg
  · exact ⟨_, rfl, h1 ▸ app1_isLocal M q, Or.inl ⟨q, M, h1, rfl, h2, hs⟩⟩
  · exact ⟨_, rfl, h1 ▸ app2_isLocal M q0 q1, Or.inr ⟨q0, q1, M, h1, rfl, h2, ht⟩⟩

/-- Two operations with no target in common, none of whose targets is used by the other,
commute. -/
theorem comm_of_disjoint {o1 o2 : StdOp ℝ} {f g : State → State} (hf : o1.denote = some f)
    (hg : o2.denote = some g) (h12 : ∀ q ∈ o1.targets, q ∉ o2.used)
    (h21 : ∀ q ∈ o2.targets, q ∉ o1.used) (ψ : State) : f (g ψ) = g (f ψ) := by
  by_cases b1 : o1.type = barrier
  · rw [denote_barrier b1] at hf; injection hf with hf; subst hf; rfl
  by_cases b2 : o2.type = barrier
  · rw [denote_barrier b2] at hg; injection hg with hg; subst hg; rfl
  by_cases g1 : o1.type = gphase
  · refine (denote_gphase_diag hf g1).comm_local (denote_local hg) ?_ ψ
    intro q hq hc; exact h21 q hq (Finset.mem_union_right _ hc)
  by_cases g2 : o2.type = gphase
  · refine ((denote_gphase_diag hg g2).comm_local (denote_local hf) ?_ ψ).symm
    intro q hq hc; exact h12 q hq (Finset.mem_union_right _ hc)
  obtain ⟨A, rfl, lA, cA⟩ := denote_core hf b1 g1
  obtain ⟨B, rfl, lB, cB⟩ := denote_core hg b2 g2
  refine ctl_comm lA lB ?_ ?_ ?_ ψ
  · intro φ
    have ne : ∀ a ∈ o1.targets, ∀ b ∈ o2.targets, a ≠ b := by
      rintro a ha b hb rfl
      exact h12 a ha (Finset.mem_union_left _ (List.mem_toFinset.2 hb))
    rcases cA with ⟨q, M, e1, rfl, -, -⟩ | ⟨q0, q1, M, e1, rfl, -, -⟩ <;>
    rcases cB with ⟨r, N, e2, rfl, -, -⟩ | ⟨r0, r1, N, e2, rfl, -, -⟩ <;> rw [e1, e2] at ne
    · exact app1_app1_comm _ _ (ne q (by simp) r (by simp)) φ
    · exact app1_app2_comm _ _ (ne q (by simp) r0 (by simp)) (ne q (by simp) r1 (by simp)) φ
    · exact (app1_app2_comm _ _ (ne q0 (by simp) r (by simp)).symm
        (ne q1 (by simp) r (by simp)).symm φ).symm
    · exact app2_app2_comm _ _ (ne q0 (by simp) r0 (by simp)) (ne q0 (by simp) r1 (by simp))
        (ne q1 (by simp) r0 (by simp)) (ne q1 (by simp) r1 (by simp)) φ
  · intro q hq hc; exact h12 q hq (Finset.mem_union_right _ hc)
  · intro q hq hc; exact h21 q hq (Finset.mem_union_right _ hc)

theorem mem_used {P : Type} {o : StdOp P} {q : ℕ} :
    q ∈ o.used ↔ q ∈ o.targets ∨ q ∈ ctrlQubits o.controls := by
  simp [used]

theorem commutes_sound {o1 o2 : StdOp ℝ} (w1 : o1.WF) (w2 : o2.WF) {f g : State → State}
    (hf : o1.denote = some f) (hg : o2.denote = some g)
    (hc : ∀ q, q ∈ o1.used → q ∈ o2.used → @commutesAt ℝ (Classical.decEq ℝ) o1 o2 q = true)
    (ψ : State) : f (g ψ) = g (f ψ) := by
  -- barriers and global phases
  by_cases b1 : o1.type = barrier
  · rw [denote_barrier b1] at hf; injection hf with hf; subst hf; rfl
  by_cases b2 : o2.type = barrier
  · rw [denote_barrier b2] at hg; injection hg with hg; subst hg; rfl
  -- the value of the test at a shared qubit
  have tt : ∀ q, q ∈ o1.targets → q ∈ o2.targets →
      (o1.type.isDiagonal = true ∧ o2.type.isDiagonal = true) ∨
      (o1.type = o2.type ∧ o1.targets = o2.targets ∧
        (o1.params.length ≤ 1 ∨ o1.params = o2.params)) := by
    intro q h1 h2
    have := hc q (mem_used.2 (Or.inl h1)) (mem_used.2 (Or.inl h2))
    have n1 := w1.disj q h1
    have n2 := w2.disj q h2
    simp only [commutesAt, actsOn, controlledOn, h1, h2, n1, n2] at this
    simp only [decide_true, decide_false, Bool.or_false, Bool.not_true, Bool.or_self,
      Bool.false_eq_true, if_false] at this
    split_ifs at this with d l
    · simp only [Bool.and_eq_true] at d; exact Or.inl d
    · simp only [Bool.and_eq_true, beq_iff_eq] at this
      exact Or.inr ⟨this.1, this.2, Or.inl l⟩
    · simp only [Bool.and_eq_true, beq_iff_eq] at this
      exact Or.inr ⟨this.1.1, this.1.2, Or.inr this.2⟩
  have ct : ∀ q, q ∈ ctrlQubits o1.controls → q ∈ o2.targets → o2.type.isDiagonal = true := by
    intro q h1 h2
    have := hc q (mem_used.2 (Or.inr h1)) (mem_used.2 (Or.inl h2))
    have n2 := w2.disj q h2
    simp only [commutesAt, actsOn, controlledOn, h1, h2, n2] at this
    simpa using this
  have tc : ∀ q, q ∈ o1.targets → q ∈ ctrlQubits o2.controls → o1.type.isDiagonal = true := by
    intro q h1 h2
    have := hc q (mem_used.2 (Or.inl h1)) (mem_used.2 (Or.inr h2))
    have n1 := w1.disj q h1
    simp only [commutesAt, actsOn, controlledOn, h1, h2, n1] at this
    simpa using this
  by_cases d1 : o1.type.isDiagonal = true
  · by_cases d2 : o2.type.isDiagonal = true
    · exact (denote_diag hf d1).comm (denote_diag hg d2) ψ
    · refine (denote_diag hf d1).comm_local (denote_local hg) ?_ ψ
      intro q hq hu
      rcases mem_used.1 hu with h | h
      · rcases tt q h hq with ⟨-, h'⟩ | ⟨h', -⟩
        · exact d2 h'
        · exact d2 (h' ▸ d1)
      · exact d2 (ct q h hq)
  by_cases d2 : o2.type.isDiagonal = true
  · refine ((denote_diag hg d2).comm_local (denote_local hf) ?_ ψ).symm
    intro q hq hu
    rcases mem_used.1 hu with h | h
    · rcases tt q hq h with ⟨h', -⟩ | ⟨h', -⟩
      · exact d1 h'
      · exact d1 (h' ▸ d2)
    · exact d1 (tc q hq h)
  by_cases g1 : o1.type = gphase
  · refine (denote_gphase_diag hf g1).comm_local (denote_local hg) ?_ ψ
    intro q hq hu; exact d2 (ct q hu hq)
  by_cases g2 : o2.type = gphase
  · refine ((denote_gphase_diag hg g2).comm_local (denote_local hf) ?_ ψ).symm
    intro q hq hu; exact d1 (tc q hq hu)
  by_cases sh : ∃ q, q ∈ o1.targets ∧ q ∈ o2.targets
  · obtain ⟨q, h1, h2⟩ := sh
    rcases tt q h1 h2 with ⟨h', -⟩ | ⟨hty, hta, hp⟩
    · exact absurd h' d1
    obtain ⟨A, rfl, lA, cA⟩ := denote_core hf b1 g1
    obtain ⟨B, rfl, lB, cB⟩ := denote_core hg b2 g2
    refine ctl_comm lA lB ?_ ?_ ?_ ψ
    · intro φ
      rcases cA with ⟨q, M, e1, rfl, m1, -⟩ | ⟨q0, q1, M, e1, rfl, m1, -⟩ <;>
      rcases cB with ⟨r, N, e2, rfl, m2, -⟩ | ⟨r0, r1, N, e2, rfl, m2, -⟩
      · rw [hta, e2] at e1; injection e1 with e1; subst e1
        rw [app1_mul, app1_mul]
        rw [← hty] at m2
        rcases hp with hp | hp
        · rw [gate1_comm hp m1 m2]
        · rw [hp, m2] at m1; injection m1 with m1; rw [m1]
      · rw [hta, e2] at e1; cases e1
      · rw [hta, e2] at e1; cases e1
      · have hne : q0 ≠ q1 := by
          have := w1.nodup; rw [e1] at this; simp at this; exact this
        rw [hta, e2] at e1; injection e1 with e1 e3; injection e3 with e3; subst e1 e3
        rw [app2_mul _ _ hne, app2_mul _ _ hne]
        rw [← hty] at m2
        rcases hp with hp | hp
        · rw [gate2_comm hp m1 m2]
        · rw [hp, m2] at m1; injection m1 with m1; rw [m1]
    · intro q hq; rw [hta] at hq; exact w2.disj q hq
    · intro q hq; rw [← hta] at hq; exact w1.disj q hq
  · apply comm_of_disjoint hf hg
    · intro q hq hu
      rcases mem_used.1 hu with h | h
      · exact sh ⟨q, hq, h⟩
      · exact d1 (tc q hq h)
    · intro q hq hu
      rcases mem_used.1 hu with h | h
      · exact sh ⟨q, h, hq⟩
      · exact d2 (ct q h hq)

end StdOp
end MQT.IR
