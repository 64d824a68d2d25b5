/-
Averages over the draws of `sample`.
-/
import Verif.Sim.Sample
import Verif.IR.Circuit
import Verif.Opt.RemoveDiagonal
import Verif.Props.DDMeasure

set_option autoImplicit false

noncomputable section

open Classical
open Function (update)
open Complex (normSq)

namespace MQT.Sim

open MQT.IR MQT.DD MQT.Opt

/-! ### Programs -/

/-- What follows after a result. -/
def onRes {α β : Type} (k : α → Rand (Res β)) (F : Res β → ℂ) : Res α → ℂ
  | .ok a => (k a).E F
  | .throw => F .throw
  | .ub => F .ub

theorem bindR_E {α β : Type} (p : Rand (Res α)) (k : α → Rand (Res β)) (F : Res β → ℂ) :
    (bindR p k).E F = p.E (onRes k F) := by
  unfold bindR
  rw [Rand.E_bind]
  congr 1
  funext r
  cases r <;> rfl

theorem bindR_lift {α β : Type} (r : Res α) (k : α → Rand (Res β)) (F : Res β → ℂ) :
    (bindR (liftR r) k).E F = onRes k F r := bindR_E _ _ _

/-! ### Measuring one qubit -/

theorem measure_E {n idx : ℕ} {e : VEdge} (he : VECan n e) (hn : normSq e.w = 1) (hi : idx < n) {eps : ℝ} (heps : 0 ≤ eps)
    (K : Res (Bool × VEdge) → ℂ) (V : Bool → ℂ)
    (hK : ∀ b r, 0 < bornOne n idx b e → VECan n r → normSq r.w = 1 →
      (∀ z, r.vec z = if z idx = b then e.vec z / ((√(bornOne n idx b e) : ℝ) : ℂ) else 0) →
      (bornOne n idx b e : ℂ) * K (.ok (b, r)) = V b)
    (h0 : ∀ b, bornOne n idx b e = 0 → V b = 0) :
    ∫ u in (0 : ℝ)..1, K (measureOne n e idx eps u) = V false + V true := by
  have hsum := born_sum (idx := idx) he
  rw [hn] at hsum
  have hnn : ∀ b, 0 ≤ bornOne n idx b e := fun b => part_nonneg n idx b e.vec
  have ht : bornOne n idx true e = 1 - bornOne n idx false e := by linarith
  have key : ∀ u : ℝ, 0 < u → u < 1 → ∃ b, (b = false ↔ u < bornOne n idx false e) ∧
      0 < bornOne n idx b e ∧ (bornOne n idx b e : ℂ) * K (measureOne n e idx eps u) = V b := by
    intro u hu0 hu1
    obtain ⟨b, r, h1, h2, h3, h4, h5, h6⟩ := c44_measure_one he hn hi le_rfl heps ⟨hu0.le, hu1⟩
    exact ⟨b, h2, h3, by rw [h1]; exact hK b r h3 h4 h6 h5⟩
  rw [integral_two (c := bornOne n idx false e) (hnn false) (by have := hnn true; linarith)
    (a := V false / (bornOne n idx false e : ℂ)) (b := V true / (bornOne n idx true e : ℂ))]
  · have hb : ∀ b, (bornOne n idx b e : ℂ) * (V b / (bornOne n idx b e : ℂ)) = V b := by
      intro b
      by_cases h : bornOne n idx b e = 0
      · rw [h, h0 b h]; simp
      · rw [mul_div_cancel₀]
        exact_mod_cast h
    rw [hb false, show (1 : ℂ) - (bornOne n idx false e : ℂ) = (bornOne n idx true e : ℂ) by rw [ht]; push_cast; ring, hb true]
  · intro u hu0 huc
    obtain ⟨b, h2, h3, h4⟩ := key u hu0 (by have := hnn true; linarith)
    obtain rfl := h2.2 huc
    rw [eq_div_iff (by exact_mod_cast h3.ne'), mul_comm, h4]
  · intro u huc hu1
    obtain ⟨b, h2, h3, h4⟩ := key u (by have := hnn false; linarith) hu1
    have hbt : b = true := by
      cases b
      · have := h2.1 rfl; linarith
      · rfl
    subst hbt
    rw [eq_div_iff (by exact_mod_cast h3.ne'), mul_comm, h4]

/-- Scaling the state by `c` scales the value by the squared modulus of `c`. -/
def Hom (G : State → Bits → ℂ) : Prop := ∀ (c : ℂ) φ m, G (fun x => c * φ x) m = (normSq c : ℂ) * G φ m

theorem Hom.zero {G : State → Bits → ℂ} (h : Hom G) (m : Bits) : G (fun _ => 0) m = 0 := by
  have := h 0 (fun _ => 0) m
  simpa using this

/-- One measured qubit in layout `σ`. -/
theorem measure_step {n q : ℕ} {σ : Equiv.Perm ℕ} {e : VEdge} {ψ : State} (he : VECan n e) (hn : normSq e.w = 1)
    (hv : e.vec = ren σ ψ) (hi : σ q < n) {eps : ℝ} (heps : 0 ≤ eps) (K : Res (Bool × VEdge) → ℂ) {G : State → Bool → ℂ}
    (hG : ∀ b (c : ℂ) φ, G (fun x => c * φ x) b = (normSq c : ℂ) * G φ b)
    (hK : ∀ b r φ, VECan n r → normSq r.w = 1 → r.vec = ren σ φ → K (.ok (b, r)) = G φ b) :
    ∫ u in (0 : ℝ)..1, K (measureOne n e (σ q) eps u)
      = G (app1 (projM false) q ψ) false + G (app1 (projM true) q ψ) true := by
  refine measure_E he hn hi heps K (fun b => G (app1 (projM b) q ψ) b) ?_ ?_
  · intro b r hb hr hrn hrv
    rw [hK b r (fun x => ((√(bornOne n (σ q) b e) : ℝ) : ℂ)⁻¹ * app1 (projM b) q ψ x) hr hrn ?_, hG, ← mul_assoc]
    · have : (bornOne n (σ q) b e : ℂ) * (normSq ((√(bornOne n (σ q) b e) : ℝ) : ℂ)⁻¹ : ℂ) = 1 := by
        rw [map_inv₀, Complex.normSq_ofReal, Real.mul_self_sqrt hb.le]
        push_cast
        exact mul_inv_cancel₀ (by exact_mod_cast hb.ne')
      rw [this, one_mul]
    · funext z
      rw [hrv z, hv]
      show _ = _ * app1 (projM b) q ψ (z ∘ σ)
      rw [app1_projM]
      show _ = _ * if z (σ q) = b then _ else _
      split_ifs
      · rw [div_eq_inv_mul]; rfl
      · rw [mul_zero]
  · intro b hb
    have hz : ∀ z, z (σ q) = b → e.vec z = 0 := by
      intro z hz
      unfold bornOne at hb
      rw [sumB_eq, Finset.sum_eq_zero_iff_of_nonneg (fun t _ => by split_ifs <;> simp [Complex.normSq_nonneg])] at hb
      have h1 := hb (fun i => z i) (Finset.mem_univ _)
      have h2 : ∀ k < n, fill (fun i : Fin n => z i) (fun _ => false) k = z k := fun k hk => by unfold fill; rw [dif_pos hk]
      rw [h2 _ hi, if_pos hz, Complex.normSq_eq_zero, vec_congr he.2 h2] at h1
      exact h1
    have hz' : app1 (projM b) q ψ = fun _ => 0 := by
      funext x
      rw [app1_projM]
      split_ifs with h
      · have h3 : (x ∘ σ.symm) (σ q) = b := by simpa using h
        have := hz _ h3
        rw [hv] at this
        have h4 : (x ∘ σ.symm) ∘ σ = x := by funext k; simp
        unfold ren at this
        rwa [h4] at this
      · rfl
    simp only [hz']
    have := hG b 0 (fun _ => 0)
    simpa using this

/-! ### Sums over outcomes -/

/-- Sum over the outcomes of measurements. -/
def measSum : List (ℕ × ℕ) → (State → Bits → ℂ) → State → Bits → ℂ
  | [], G, ψ, m => G ψ m
  | (q, c) :: l, G, ψ, m => measSum l G (app1 (projM false) q ψ) (update m c false)
      + measSum l G (app1 (projM true) q ψ) (update m c true)

/-- Sum over the outcomes of resets. -/
def resSum : List ℕ → (State → Bits → ℂ) → State → Bits → ℂ
  | [], G, ψ, m => G ψ m
  | q :: l, G, ψ, m => resSum l G (app1 (projM false) q ψ) m + resSum l G (app1 flipM q (app1 (projM true) q ψ)) m

theorem measSum_hom {G : State → Bits → ℂ} (hG : Hom G) (l : List (ℕ × ℕ)) : Hom (measSum l G) := by
  induction l with
  | nil => exact hG
  | cons x l ih =>
    intro c φ m
    simp only [measSum, (app1_linear _ _).smul]
    rw [ih, ih]
    ring

theorem resSum_hom {G : State → Bits → ℂ} (hG : Hom G) (l : List ℕ) : Hom (resSum l G) := by
  induction l with
  | nil => exact hG
  | cons x l ih =>
    intro c φ m
    simp only [resSum, (app1_linear _ _).smul]
    rw [ih, ih]
    ring

/-- The value of a run. -/
def wt (n : ℕ) (x : Bits → ℂ) (ops : List (Op ℝ)) (ψ : State) (m : Bits) : ℂ :=
  sumO (outcomes ops) fun o => weigh n x (run ops ⟨ψ, m, o⟩)

theorem cons_zero (b : Bool) (o : ℕ → Bool) : (fun i => if i + 1 = 0 then b else o (i + 1 - 1)) = o := by
  funext i
  simp

theorem measure_cons (q c : ℕ) (ψ : State) (m : Bits) (b : Bool) (o : ℕ → Bool) :
    measure1 q c ⟨ψ, m, fun i => if i = 0 then b else o (i - 1)⟩ = ⟨app1 (projM b) q ψ, update m c b, o⟩ := by
  simp only [measure1, if_true, cons_zero]

theorem reset_cons (q : ℕ) (ψ : State) (m : Bits) (b : Bool) (o : ℕ → Bool) :
    reset1 q ⟨ψ, m, fun i => if i = 0 then b else o (i - 1)⟩
      = ⟨if b then app1 flipM q (app1 (projM true) q ψ) else app1 (projM false) q ψ, m, o⟩ := by
  simp only [reset1, if_true, cons_zero]

theorem sumO_measure (H : Cfg → ℂ) (j : ℕ) (l : List (ℕ × ℕ)) (ψ : State) (m : Bits) :
    sumO (l.length + j) (fun o => H (l.foldl (fun c p => measure1 p.1 p.2 c) ⟨ψ, m, o⟩))
      = measSum l (fun φ m' => sumO j fun o => H ⟨φ, m', o⟩) ψ m := by
  induction l generalizing ψ m with
  | nil => rw [List.length_nil, Nat.zero_add]; rfl
  | cons p l ih =>
    have : (p :: l).length + j = (l.length + j) + 1 := by simp; omega
    rw [this, sumO]
    simp only [List.foldl_cons, measure_cons]
    rw [ih, ih]
    rfl

theorem sumO_reset (H : Cfg → ℂ) (j : ℕ) (l : List ℕ) (ψ : State) (m : Bits) :
    sumO (l.length + j) (fun o => H (l.foldl (fun c q => reset1 q c) ⟨ψ, m, o⟩))
      = resSum l (fun φ m' => sumO j fun o => H ⟨φ, m', o⟩) ψ m := by
  induction l generalizing ψ with
  | nil => rw [List.length_nil, Nat.zero_add]; rfl
  | cons p l ih =>
    have : (p :: l).length + j = (l.length + j) + 1 := by simp; omega
    rw [this, sumO]
    simp only [List.foldl_cons, reset_cons, if_true, Bool.false_eq_true, if_false]
    rw [ih, ih]
    rfl

theorem wt_measure (n : ℕ) (x : Bits → ℂ) (qs cs : List ℕ) (l : List (Op ℝ)) (ψ : State) (m : Bits) :
    wt n x (.measure qs cs :: l) ψ m = measSum (qs.zip cs) (wt n x l) ψ m := by
  have := sumO_measure (fun c => weigh n x (run l c)) (outcomes l) (qs.zip cs) ψ m
  unfold wt
  rw [outcomes, ← this]
  simp only [run_cons, exec, Option.bind_some]

theorem wt_reset (n : ℕ) (x : Bits → ℂ) (qs : List ℕ) (l : List (Op ℝ)) (ψ : State) (m : Bits) :
    wt n x (.reset qs :: l) ψ m = resSum qs (wt n x l) ψ m := by
  have := sumO_reset (fun c => weigh n x (run l c)) (outcomes l) qs ψ m
  unfold wt
  rw [outcomes, ← this]
  simp only [run_cons, exec, Option.bind_some]

theorem wt_acts (n : ℕ) (x : Bits → ℂ) {op : Op ℝ} (ho : outcomes [op] = 0) {f : State → State} (hf : Acts op f) (l : List (Op ℝ))
    (ψ : State) (m : Bits) : wt n x (op :: l) ψ m = wt n x l (f ψ) m := by
  have e : outcomes (op :: l) = outcomes l := by
    cases op <;> simp [outcomes] at ho ⊢ <;> simp [ho]
  unfold wt
  rw [e]
  congr 1
  funext o
  rw [run_cons, hf, Option.bind_some]
  rfl

mutual
/-- Execution is linear. -/
theorem exec_smul (k : ℂ) (op : Op ℝ) (c : Cfg) :
    exec op (c.mapSt fun φ x => k * φ x) = (exec op c).map (Cfg.mapSt fun φ x => k * φ x) := by
  match op with
  | .std o =>
    rw [exec, exec]
    cases h : o.denote with
    | none => rfl
    | some f =>
      simp only [Option.map_some, Cfg.mapSt, (StdOp.denote_linear h).smul]
  | .compound ops _ =>
    rw [exec, exec]
    exact run_smul k ops c
  | .measure qs cs =>
    rw [exec, exec, Option.map_some]
    congr 1
    induction qs.zip cs generalizing c with
    | nil => rfl
    | cons p l ih =>
      rw [List.foldl_cons, List.foldl_cons, ← ih]
      congr 1
      simp only [measure1, Cfg.mapSt, (app1_linear _ _).smul]
  | .reset qs =>
    rw [exec, exec, Option.map_some]
    congr 1
    induction qs generalizing c with
    | nil => rfl
    | cons p l ih =>
      rw [List.foldl_cons, List.foldl_cons, ← ih]
      congr 1
      simp only [reset1, Cfg.mapSt, (app1_linear _ _).smul]
      cases c.orc 0 <;> rfl
  | .classic p op =>
    rw [exec, exec]
    show (if p c.mem then _ else _) = _
    by_cases h : p c.mem = true
    · rw [if_pos h, if_pos h]
      exact exec_smul k op c
    · rw [if_neg h, if_neg h]
      rfl
theorem run_smul (k : ℂ) (l : List (Op ℝ)) (c : Cfg) :
    run l (c.mapSt fun φ x => k * φ x) = (run l c).map (Cfg.mapSt fun φ x => k * φ x) := by
  match l with
  | [] => rw [run_nil, run_nil]; rfl
  | op :: l =>
    rw [run_cons, run_cons, exec_smul k op c]
    cases h : exec op c with
    | none => rfl
    | some d => exact run_smul k l d
end

theorem nrm_smul (n : ℕ) (k : ℂ) (φ : State) : nrm n (fun x => k * φ x) = normSq k * nrm n φ := by
  unfold nrm
  simp only [map_mul]
  rw [sumB_mul_left']

theorem sumO_mul (k : ℂ) (j : ℕ) (F : (ℕ → Bool) → ℂ) : sumO j (fun o => k * F o) = k * sumO j F := by
  induction j generalizing F with
  | zero => rfl
  | succ j ih => simp only [sumO, ih, mul_add]

theorem wt_hom (n : ℕ) (x : Bits → ℂ) (ops : List (Op ℝ)) : Hom (wt n x ops) := by
  intro k φ m
  unfold wt
  rw [← sumO_mul]
  congr 1
  funext o
  have := run_smul k ops ⟨φ, m, o⟩
  rw [show (⟨fun x => k * φ x, m, o⟩ : Cfg) = Cfg.mapSt (fun φ x => k * φ x) ⟨φ, m, o⟩ from rfl, this]
  cases run ops ⟨φ, m, o⟩ with
  | none => simp [weigh]
  | some d =>
    simp only [Option.map_some, weigh, Cfg.mapSt, nrm_smul]
    push_cast
    ring

/-! ### Circuits that are simulated for every shot -/

/-- Operations of circuits that can be sampled. -/
def DGood (n ncb : ℕ) : Op ℝ → Prop
  | .measure qs cs => qs.length ≤ cs.length ∧ (∀ q ∈ qs, q < n) ∧ ∀ c ∈ cs, c < ncb
  | .reset qs => ∀ q ∈ qs, q < n
  | .classic _ op => Good (· < n) op
  | op => Good (· < n) op

/-- A layout on `n` qubits. -/
abbrev LayN (n : ℕ) (p : Perm) (σ : Equiv.Perm ℕ) : Prop := Lay (· < n) (· < n) 1 p σ

theorem LayN.lt {n : ℕ} {p : Perm} {σ : Equiv.Perm ℕ} (h : LayN n p σ) {q : ℕ} (hq : q < n) : σ q < n := by
  obtain ⟨v, hv⟩ := (h.dom q).2 hq
  rw [h.ext q v hv]
  exact (h.rng v).1 ⟨q, hv⟩

theorem LayN.apply {n : ℕ} {p : Perm} {σ : Equiv.Perm ℕ} (h : LayN n p σ) {q : ℕ} (hq : q < n) : p.apply q = some (σ q) := by
  obtain ⟨v, hv⟩ := (h.dom q).2 hq
  unfold Perm.apply
  rw [if_neg (by rintro rfl; simp at hv), hv, h.ext q v hv]

/-- A normalised diagram of `ψ` in layout `σ`. -/
structure Holds (n : ℕ) (σ : Equiv.Perm ℕ) (e : VEdge) (ψ : State) : Prop where
  can : VECan n e
  nrm : normSq e.w = 1
  vec : e.vec = ren σ ψ

theorem dynMeas_E {n ncb : ℕ} {σ : Equiv.Perm ℕ} {eps : ℝ} (heps : 0 ≤ eps) {F : Res (VEdge × Bits) → ℂ}
    {G : State → Bits → ℂ} (hG : Hom G) (hF : ∀ e φ m, Holds n σ e φ → F (.ok (e, m)) = G φ m) (qs : List ℕ) :
    ∀ (cs : List ℕ) (e : VEdge) (ψ : State) (m : Bits), qs.length ≤ cs.length → (∀ q ∈ qs, σ q < n) → (∀ c ∈ cs, c < ncb) →
      Holds n σ e ψ → (dynMeas n ncb eps (qs.map σ) cs e m).E F = measSum (qs.zip cs) G ψ m := by
  induction qs with
  | nil =>
    intro cs e ψ m _ _ _ h
    exact hF e ψ m h
  | cons q qs ih =>
    intro cs e ψ m hl hq hc h
    cases cs with
    | nil => simp at hl
    | cons c cs =>
      rw [List.map_cons, dynMeas, Rand.E, List.zip_cons_cons, measSum]
      have key := measure_step (q := q) h.can h.nrm h.vec (hq q (by simp)) heps
        (fun r => (match r with
          | .ok (b, e') => if c < ncb then dynMeas n ncb eps (qs.map σ) cs e' (update m c b) else .done .throw
          | .throw => .done .throw
          | .ub => .done .ub : Rand (Res (VEdge × Bits))).E F)
        (G := fun φ b => measSum (qs.zip cs) G φ (update m c b))
        (fun b k φ => measSum_hom hG _ k φ _)
        (fun b r φ h1 h2 h3 => by
          simp only [if_pos (hc c (by simp))]
          exact ih cs r φ _ (by simpa using hl) (fun k hk => hq k (by simp [hk])) (fun k hk => hc k (by simp [hk])) ⟨h1, h2, h3⟩)
      rw [← key]
      rfl

theorem xDen (q : ℕ) : ({ type := .x, targets := [q] } : StdOp ℝ).denote = some (app1 flipM q) := by
  have h : gate1 .x [] = some flipM := by
    have e : mat1 0 1 1 0 = flipM := by
      funext r c
      cases r <;> cases c <;> simp [mat1, flipM]
    rw [← e]
    rfl
  rw [StdOp.denote_single_of (q := q) (M := flipM) rfl rfl h]
  rw [show ({ type := .x, targets := [q] } : StdOp ℝ).controls = ∅ from rfl, ctl_empty]

theorem applyU_spec {n : ℕ} {p : Perm} {σ : Equiv.Perm ℕ} {op : Op ℝ} (hok : OpOk n p σ op) {e : VEdge} (he : VECan n e)
    {ψ : State} (hv : e.vec = ren σ ψ) :
    ∃ e' f, applyU n op p e = .ok e' ∧ Acts op f ∧ VECan n e' ∧ e'.vec = ren σ (f ψ) := by
  obtain ⟨m, f, h1, h2, h3⟩ := getDD_spec op hok
  obtain ⟨e', h4, h5, h6⟩ := mulStep_vec n m e h3.1 he
  refine ⟨e', f, ?_, h2, h5, ?_⟩
  · unfold applyU
    rw [h1]
    simp only [Res.bind, h4]
  · funext z
    rw [show e'.vec z = _ from h6 () z]
    show matVec n (m.mat n) e.vec z = _
    rw [hv, h3.2]

theorem flip_spec {n i : ℕ} (hi : i < n) {e : VEdge} (he : VECan n e) (hn : normSq e.w = 1) :
    ∃ e', applyU n (.std { type := .x, targets := [i] }) [] e = .ok e' ∧ VECan n e' ∧ normSq e'.w = 1 ∧
      e'.vec = app1 flipM i e.vec := by
  have hsg : StdGood (· < n) ({ type := .x, targets := [i] } : StdOp ℝ) :=
    ⟨⟨by simp, by simp [ctrlQubits]⟩, ⟨_, xDen i⟩, by
      intro k hk; rw [StdOp.mem_used] at hk; simp [ctrlQubits] at hk; omega, by intro c hc; simp at hc, fun h => by cases h⟩
  have hok : OpOk n [] 1 (.std ({ type := .x, targets := [i] } : StdOp ℝ)) := by
    rw [OpOk]
    exact ⟨hsg.wf, hsg.den, fun q hq => ⟨rfl, hsg.cov q hq⟩, hsg.dis, hsg.gph⟩
  obtain ⟨e', f, h1, h2, h3, h4⟩ := applyU_spec hok he (ψ := e.vec) rfl
  have hf : f e.vec = app1 flipM i e.vec := by
    have := h2 ⟨e.vec, fun _ => false, fun _ => false⟩
    rw [exec, xDen] at this
    exact (congrArg Cfg.st (Option.some.inj this)).symm
  have hv : e'.vec = app1 flipM i e.vec := by rw [h4, hf]; rfl
  refine ⟨e', h1, h3, ?_, hv⟩
  rw [← nrm_vec h3, hv, nrm_std hsg (xDen i), nrm_vec he, hn]

theorem dynReset_E {n : ℕ} {σ : Equiv.Perm ℕ} {eps : ℝ} (heps : 0 ≤ eps) {F : Res VEdge → ℂ} (m : Bits)
    {G : State → Bits → ℂ} (hG : Hom G) (hF : ∀ e φ, Holds n σ e φ → F (.ok e) = G φ m) (qs : List ℕ) :
    ∀ (e : VEdge) (ψ : State), (∀ q ∈ qs, σ q < n) →
      Holds n σ e ψ → (dynReset n eps (qs.map σ) e).E F = resSum qs G ψ m := by
  induction qs with
  | nil =>
    intro e ψ _ h
    exact hF e ψ h
  | cons q qs ih =>
    intro e ψ hq h
    rw [List.map_cons, dynReset, Rand.E, resSum]
    have hqn := hq q (by simp)
    have key := measure_step (q := q) h.can h.nrm h.vec hqn heps
      (fun r => (match r with
        | .ok (b, e') =>
          if b then bindR (liftR (applyU n (.std { type := .x, targets := [σ q] }) [] e')) fun e'' => dynReset n eps (qs.map σ) e''
          else dynReset n eps (qs.map σ) e'
        | .throw => .done .throw
        | .ub => .done .ub : Rand (Res VEdge)).E F)
      (G := fun φ b => resSum qs G (if b then app1 flipM q φ else φ) m)
      (fun b k φ => by
        cases b
        · exact resSum_hom hG _ k φ _
        · simp only [if_true, (app1_linear _ _).smul]
          exact resSum_hom hG _ k _ _)
      (fun b r φ h1 h2 h3 => by
        cases b
        · exact ih r φ (fun k hk => hq k (by simp [hk])) ⟨h1, h2, h3⟩
        · obtain ⟨e', k1, k2, k3, k4⟩ := flip_spec hqn h1 h2
          simp only [if_true]
          rw [bindR_lift, k1]
          refine ih e' _ (fun k hk => hq k (by simp [hk])) ⟨k2, k3, ?_⟩
          rw [k4, h3, ren_app1])
    simp only [Bool.false_eq_true, if_false, if_true] at key
    rw [← key]
    rfl

theorem nrm_f {n : ℕ} {op : Op ℝ} (hg : Good (· < n) op) {f : State → State} (hf : Acts op f) (ψ : State) :
    nrm n (f ψ) = nrm n ψ := nrm_acts op hg ⟨ψ, fun _ => false, fun _ => false⟩ _ (hf _)

theorem uni_step {n : ℕ} {p : Perm} {σ : Equiv.Perm ℕ} {e : VEdge} {ψ : State} {op : Op ℝ} (hg : Good (· < n) op)
    (hl : LayN n p σ) (h : Holds n σ e ψ) :
    ∃ σ' e' f, simLoop n mvmul [op] p e = .ok (stepPerm p op, e') ∧ Acts op f ∧ LayN n (stepPerm p op) σ' ∧
      Holds n σ' e' (f ψ) := by
  obtain ⟨σ', e', f, h1, h2, h3, h4, h5⟩ := simLoop_spec (D := (· < n)) (V := (· < n)) (fun v hv => hv) (mulStep_vec n) [op] p σ e
    (fun _ => ψ) (by rw [GoodL, GoodL]; exact ⟨hg, trivial⟩) hl h.can (fun _ => h.vec)
  have h2' : Acts op f := by
    intro c
    have := h2 c
    rwa [run_singleton] at this
  refine ⟨σ', e', f, h1, h2', h3, h4, ?_, h5 ()⟩
  rw [← nrm_vec h4, show e'.vec = ren σ' (f ψ) from h5 (), nrm_ren (fun q hq => LayN.lt h3 hq),
    nrm_f hg h2', ← nrm_ren (fun q hq => LayN.lt hl hq), ← h.vec, nrm_vec h.can,
    h.nrm]

theorem dynLoop_E {n ncb : ℕ} {eps : ℝ} (heps : 0 ≤ eps) {F : Res Bits → ℂ} {x : Bits → ℂ} (hF : ∀ m, F (.ok m) = x m)
    (ops : List (Op ℝ)) :
    ∀ (p : Perm) (σ : Equiv.Perm ℕ) (e : VEdge) (ψ : State) (m : Bits), (∀ op ∈ ops, DGood n ncb op) → LayN n p σ →
      Holds n σ e ψ → (dynLoop n ncb eps ops p e m).E F = wt n x ops ψ m := by
  induction ops with
  | nil =>
    intro p σ e ψ m _ hl h
    rw [dynLoop, Rand.E, hF]
    show _ = weigh n x (run [] ⟨ψ, m, _⟩)
    rw [run_nil]
    show _ = (nrm n ψ : ℂ) * x m
    rw [← nrm_ren (fun q hq => LayN.lt hl hq) ψ, ← h.vec, nrm_vec h.can, h.nrm]
    simp
  | cons op ops ih =>
    intro p σ e ψ m hg hl h
    have hg1 := hg op (by simp)
    have hg2 : ∀ o ∈ ops, DGood n ncb o := fun o ho => hg o (by simp [ho])
    match op with
    | .std o =>
      obtain ⟨σ', e', f, h1, h2, h3, h4⟩ := uni_step (op := .std o) hg1 hl h
      rw [dynLoop, bindR_lift, h1, wt_acts n x rfl h2]
      exact ih _ _ _ _ _ hg2 h3 h4
    | .compound os b =>
      obtain ⟨σ', e', f, h1, h2, h3, h4⟩ := uni_step (op := .compound os b) hg1 hl h
      rw [dynLoop, bindR_lift, h1, wt_acts n x rfl h2]
      exact ih _ _ _ _ _ hg2 h3 h4
    | .measure qs cs =>
      obtain ⟨k1, k2, k3⟩ := hg1
      rw [dynLoop, applyT_eq fun q hq => LayN.apply hl (k2 q hq)]
      simp only
      rw [bindR_E, wt_measure]
      exact dynMeas_E heps (wt_hom n x ops) (fun e' φ m' he' => ih p σ e' φ m' hg2 hl he') qs cs e ψ m k1
        (fun q hq => LayN.lt hl (k2 q hq)) k3 h
    | .reset qs =>
      have k2 : ∀ q ∈ qs, q < n := hg1
      rw [dynLoop, applyT_eq fun q hq => LayN.apply hl (k2 q hq)]
      simp only
      rw [bindR_E, wt_reset]
      exact dynReset_E heps m (wt_hom n x ops) (fun e' φ he' => ih p σ e' φ m hg2 hl he') qs e ψ
        (fun q hq => LayN.lt hl (k2 q hq)) h
    | .classic c op =>
      have k2 : Good (· < n) op := hg1
      rw [dynLoop]
      by_cases hc : c m = true
      · rw [if_pos hc, bindR_lift]
        obtain ⟨e', f, h1, h2, h3, h4⟩ := applyU_spec (op := op) (Good.ok hl (fun v hv => hv) op k2) h.can h.vec
        have h1' : applyU n (.classic c op) p e = .ok e' := by
          rw [← h1]
          unfold applyU
          rw [getDD]
        rw [h1']
        have hn : normSq e'.w = 1 := by
          rw [← nrm_vec h3, h4, nrm_ren (fun q hq => LayN.lt hl hq), nrm_f k2 h2,
            ← nrm_ren (fun q hq => LayN.lt hl hq), ← h.vec, nrm_vec h.can, h.nrm]
        show (dynLoop n ncb eps ops p e' m).E F = _
        rw [ih p σ e' (f ψ) m hg2 hl ⟨h3, hn, h4⟩]
        unfold wt
        rw [show outcomes (.classic c op :: ops) = outcomes ops from rfl]
        congr 1
        funext o
        rw [run_cons, exec]
        simp only [if_pos hc]
        rw [h2, Option.bind_some]
        rfl
      · rw [if_neg hc, ih p σ e ψ m hg2 hl h]
        unfold wt
        rw [show outcomes (.classic c op :: ops) = outcomes ops from rfl]
        congr 1
        funext o
        rw [run_cons, exec]
        simp only [if_neg hc]
        rw [Option.bind_some]

/-! ### Strings -/

theorem str_length (k : ℕ) (m : Bits) : (str k m).length = k := by simp [str]

theorem str_get {k : ℕ} (m : Bits) {i : ℕ} (hi : i < k) : (str k m)[i]? = some (m (k - 1 - i)) := by
  simp [str, hi]

theorem str_congr {k : ℕ} {m m' : Bits} (h : ∀ b < k, m b = m' b) : str k m = str k m' := by
  unfold str
  refine List.map_congr_left fun i hi => ?_
  rw [List.mem_range] at hi
  exact h _ (by omega)

theorem str_zero (k : ℕ) : List.replicate k false = str k fun _ => false := by
  apply List.ext_getElem?
  intro i
  by_cases hi : i < k
  · rw [str_get _ hi, List.getElem?_replicate, if_pos hi]
  · rw [List.getElem?_eq_none (by simpa using hi), List.getElem?_eq_none (by rw [str_length]; omega)]

theorem str_set {k b : ℕ} (hb : b < k) (m : Bits) (v : Bool) : (str k m).set (k - 1 - b) v = str k (update m b v) := by
  apply List.ext_getElem?
  intro i
  by_cases hi : i < k
  · rw [str_get _ hi, List.getElem?_set, str_length]
    by_cases h : k - 1 - b = i
    · rw [if_pos h, if_pos (by omega)]
      have : k - 1 - i = b := by omega
      rw [this, Function.update_self]
    · rw [if_neg h, str_get _ hi, Function.update_of_ne (by omega)]
  · rw [List.getElem?_eq_none (by rw [List.length_set, str_length]; omega), List.getElem?_eq_none (by rw [str_length]; omega)]

theorem readBit_str {k : ℕ} (m : Bits) {i : ℕ} (hi : i < k) : readBit (str k m) i = some (m i) := by
  unfold readBit
  rw [str_length, if_pos hi, str_get _ (by omega)]
  congr 2
  omega

theorem shotStr_eq (k : ℕ) (m : Bits) : shotStr k m = str k m := by
  have key : ∀ j ≤ k, (List.range j).foldl (fun s b => if m b then s.set (k - b - 1) true else s) (List.replicate k false)
      = str k fun b => decide (b < j) && m b := by
    intro j hj
    induction j with
    | zero => simp [str_zero]
    | succ j ih =>
      rw [List.range_succ, List.foldl_append, ih (by omega), List.foldl_cons, List.foldl_nil]
      by_cases h : m j = true
      · rw [if_pos h, show k - j - 1 = k - 1 - j by omega, str_set (by omega)]
        congr 1
        funext b
        by_cases hb : b = j
        · subst hb; simp [h]
        · rw [Function.update_of_ne hb]
          have : b < j ↔ b < j + 1 := by omega
          simp [this]
      · rw [if_neg h]
        congr 1
        funext b
        by_cases hb : b = j
        · subst hb; simp [h]
        · have : b < j ↔ b < j + 1 := by omega
          simp [this]
  unfold shotStr
  rw [key k le_rfl]
  exact str_congr fun b hb => by simp [hb]

/-- Write the outcomes `z` of the qubits to the bits, in order. -/
def writeAll (z : Bits) (l : List (ℕ × ℕ)) (m : Bits) : Bits := l.foldl (fun m p => update m p.2 (z p.1)) m

theorem convMeas_str {out : Perm} {nb n : ℕ} {r z : Bits} (l : Perm)
    (h : ∀ p ∈ l, p.2 < nb ∧ ∃ i < n, out.lookup p.1 = some i ∧ r i = z p.1) (m : Bits) :
    convMeas out nb (str n r) l (str nb m) = .ok (str nb (writeAll z l m)) := by
  induction l generalizing m with
  | nil => rfl
  | cons p l ih =>
    obtain ⟨q, b⟩ := p
    obtain ⟨hb, i, hi, h1, h2⟩ := h (q, b) (by simp)
    rw [convMeas, h1]
    simp only [readBit_str r hi, if_pos hb, str_set hb]
    rw [ih (fun p hp => h p (by simp [hp])), h2]
    rfl

theorem convOut_str {nb n : ℕ} {r : Bits} (l : Perm) (h : ∀ p ∈ l, p.2 < nb ∧ p.1 < n) (m : Bits) :
    convOut nb (str n r) l (str nb m) = .ok (str nb (writeAll r l m)) := by
  induction l generalizing m with
  | nil => rfl
  | cons p l ih =>
    obtain ⟨q, b⟩ := p
    obtain ⟨hb, hi⟩ := h (q, b) (by simp)
    rw [convOut]
    simp only [readBit_str r hi, if_pos hb, str_set hb]
    rw [ih (fun p hp => h p (by simp [hp]))]
    rfl

/-! ### Counts -/

theorem gen_bump (x : List Bool → ℂ) (c : List (List Bool × ℕ)) (s : List Bool) (k : ℕ) :
    gen x (bump c s k) = x s ^ k * gen x c := by
  induction c with
  | nil => simp [bump, gen]
  | cons a c ih =>
    obtain ⟨s', k'⟩ := a
    rw [bump]
    split_ifs with h
    · subst h
      simp only [gen, List.map_cons, List.prod_cons, pow_add]
      ring
    · simp only [gen, List.map_cons, List.prod_cons] at ih ⊢
      rw [ih]
      ring

/-- All counts are positive. -/
def Pos (c : List (List Bool × ℕ)) : Prop := ∀ e ∈ c, 0 < e.2

theorem bump_pos {c : List (List Bool × ℕ)} (h : Pos c) (s : List Bool) : Pos (bump c s 1) := by
  induction c with
  | nil => intro e he; simp [bump] at he; subst he; simp
  | cons a c ih =>
    obtain ⟨s', k'⟩ := a
    rw [bump]
    have h1 : 0 < k' := h (s', k') (by simp)
    have h2 : Pos c := fun e he => h e (by simp [he])
    split_ifs
    · intro e he
      rcases List.mem_cons.1 he with rfl | he
      · simp
      · exact h2 e he
    · intro e he
      rcases List.mem_cons.1 he with rfl | he
      · exact h1
      · exact ih h2 e he

theorem shotLoop_E {shot : Rand (Res (List Bool))} {x : List Bool → ℂ} {A : ℂ} {F : Res (List (List Bool × ℕ)) → ℂ}
    (hA : ∀ (k : ℂ) (f : Res (List Bool) → ℂ), (∀ s, f (.ok s) = k * x s) → shot.E f = k * A)
    (hF : ∀ c, Pos c → F (.ok c) = gen x c) (k : ℕ) :
    ∀ c, Pos c → (shotLoop shot k c).E F = gen x c * A ^ k := by
  induction k with
  | zero =>
    intro c hc
    rw [shotLoop, Rand.E, hF c hc, pow_zero, mul_one]
  | succ k ih =>
    intro c hc
    rw [shotLoop, bindR_E, hA (gen x c * A ^ k)]
    · ring
    · intro s
      show (shotLoop shot k (bump c s 1)).E F = _
      rw [ih _ (bump_pos hc s), gen_bump]
      ring

/-- The value of the string that is reported for a measured string. -/
def valOf (C : Qc) (s : Scan) (x : List Bool → ℂ) (raw : List Bool) : ℂ :=
  match conv C s raw with
  | .ok r => x r
  | _ => 0

theorem convCounts_gen (C : Qc) (s : Scan) (x : List Bool → ℂ) (l : List (List Bool × ℕ)) (hl : Pos l) :
    ∀ acc, genR x (convCounts C s l acc) = gen x acc * gen (valOf C s x) l := by
  induction l with
  | nil => intro acc; simp [convCounts, genR, gen]
  | cons a l ih =>
    intro acc
    obtain ⟨raw, k⟩ := a
    have hk : 0 < k := hl (raw, k) (by simp)
    have hl' : Pos l := fun e he => hl e (by simp [he])
    rw [convCounts]
    have hg : gen (valOf C s x) ((raw, k) :: l) = valOf C s x raw ^ k * gen (valOf C s x) l := by simp [gen]
    rw [hg]
    unfold valOf
    cases h : conv C s raw with
    | ok r =>
      simp only [Res.bind]
      rw [ih hl', gen_bump]
      unfold valOf
      ring
    | throw => simp [Res.bind, genR, hk.ne']
    | ub => simp [Res.bind, genR, hk.ne']

/-! ### Measuring all qubits -/

theorem measureLoopR_run (eps : ℝ) (draw : ℕ → ℝ) (i : ℕ) (p : VNode) (r : Bits) :
    (measureLoopR eps i p r).runWith ((List.range i).reverse.map draw) = some (measureLoop eps draw i p r) := by
  induction i generalizing p r with
  | zero => rfl
  | succ i ih =>
    cases p with
    | term => rfl
    | node v w c =>
      rw [measureLoopR, measureLoop, List.range_succ, List.reverse_append]
      by_cases h : |normSq (w false) + normSq (w true) - 1| > eps
      · rw [if_pos h, if_pos h]; rfl
      · rw [if_neg h, if_neg h, List.reverse_singleton, List.singleton_append, List.map_cons, Rand.runWith]
        by_cases hd : draw i < normSq (w false) / (normSq (w false) + normSq (w true))
        · rw [if_pos hd, if_pos hd, ih]
        · rw [if_neg hd, if_neg hd, ih]

theorem measureLoopR_E {eps : ℝ} (heps : 0 ≤ eps) {F : Res Bits → ℂ} {y : Bits → ℂ} (hF : ∀ r, F (.ok r) = y r) (i : ℕ) :
    ∀ (p : VNode) (r : Bits), VCan i p → (∀ q < i, r q = false) →
      (measureLoopR eps i p r).E F = sumB i (fun z => (normSq (vval p z) : ℂ) * y z) r := by
  induction i with
  | zero =>
    intro p r hp _
    rw [hp.zero_cases]
    simp [measureLoopR, Rand.E, hF, sumB, vval]
  | succ i ih =>
    intro p r hp hr
    obtain ⟨w, c, rfl, h2, h3⟩ := hp.cases
    have hsum : normSq (w false) + normSq (w true) = 1 := by rw [← vtop_normSq, h2, map_one]
    have hnn : ∀ b, 0 ≤ normSq (w b) := fun b => Complex.normSq_nonneg _
    rw [measureLoopR]
    rw [if_neg (by rw [hsum]; simpa using heps), hsum, div_one, Rand.E, sumB]
    have hbr : ∀ b s, s i = b → sumB i (fun z => (normSq (vval (.node i w c) z) : ℂ) * y z) s
        = (normSq (w b) : ℂ) * sumB i (fun z => (normSq (vval (c b) z) : ℂ) * y z) s := by
      intro b s hs
      rw [show ((normSq (w b) : ℂ) * sumB i (fun z => (normSq (vval (c b) z) : ℂ) * y z) s)
        = sumB i (fun z => (normSq (w b) : ℂ) * ((normSq (vval (c b) z) : ℂ) * y z)) s from by
          rw [sumB_eq, sumB_eq, Finset.mul_sum]]
      apply sumB_congr
      intro z hz
      rw [vval, hz i le_rfl, hs, map_mul]
      push_cast
      ring
    rw [hbr false _ (Function.update_self ..), hbr true _ (Function.update_self ..)]
    have e0 : update r i false = r := by rw [← hr i (by omega), Function.update_eq_self]
    rw [e0]
    rw [integral_two (hnn false) (by have := hnn true; linarith)
      (a := sumB i (fun z => (normSq (vval (c false) z) : ℂ) * y z) r)
      (b := sumB i (fun z => (normSq (vval (c true) z) : ℂ) * y z) (update r i true))]
    · rw [show (1 : ℂ) - (normSq (w false) : ℂ) = (normSq (w true) : ℂ) by
        rw [← Complex.ofReal_one, ← hsum]; push_cast; ring]
    · intro u hu0 huc
      have hw : w false ≠ 0 := by
        intro h
        rw [h, map_zero] at huc
        linarith
      rw [if_pos huc]
      exact ih _ _ ((h3 false).2 hw) fun q hq => hr q (by omega)
    · intro u huc hu1
      have hw : w true ≠ 0 := by
        intro h
        rw [h, map_zero, add_zero] at hsum
        linarith
      rw [if_neg (not_lt.2 huc.le)]
      exact ih _ _ ((h3 true).2 hw) fun q hq => by rw [Function.update_of_ne (by omega)]; exact hr q (by omega)

theorem measureAllR_E {n : ℕ} {e : VEdge} (he : VECan n e) (hn : normSq e.w = 1) {eps : ℝ} (heps : 0 ≤ eps)
    {F : Res (List Bool) → ℂ} {y : List Bool → ℂ} (hF : ∀ s, F (.ok s) = y s) :
    (measureAllR e eps).E F = sumB n (fun z => (normSq (e.vec z) : ℂ) * y (str n z)) fun _ => false := by
  have h0 : e.w ≠ 0 := fun h => by rw [h, map_zero] at hn; exact zero_ne_one hn
  have hv : ∀ z, normSq (e.vec z) = normSq (vval e.p z) := by
    intro z
    unfold Edge.vec
    rw [map_mul, hn, one_mul]
  unfold measureAllR
  rw [if_neg fun h => h0 h.2]
  have hc := he.2 h0
  cases n with
  | zero =>
    simp only [hv]
    rw [hc.zero_cases]
    simp [Rand.E, hF, sumB, vval, str]
  | succ n =>
    obtain ⟨w, c, hp, _, _⟩ := hc.cases
    simp only [hv]
    rw [hp] at hc ⊢
    dsimp only
    rw [bindR_E]
    exact measureLoopR_E heps (fun r => hF _) _ _ _ hc fun _ _ => rfl

/-! ### Circuits with measurements at the end -/

theorem measSum_born (n : ℕ) (H : Bits → Bits → ℂ) (l : List (ℕ × ℕ)) (ψ : State) (m : Bits) :
    measSum l (fun φ m' => sumB n (fun z => (normSq (φ z) : ℂ) * H m' z) fun _ => false) ψ m
      = sumB n (fun z => (normSq (ψ z) : ℂ) * H (writeAll z l m) z) fun _ => false := by
  induction l generalizing ψ m with
  | nil => rfl
  | cons p l ih =>
    obtain ⟨q, c⟩ := p
    rw [measSum, ih, ih, ← sumB_add]
    congr 1
    funext z
    rw [app1_projM, app1_projM]
    show _ = _ * H (writeAll z l (update m c (z q))) z
    cases z q <;> simp

/-- The (qubit, bit) pairs of all measurements. -/
def pairsOf : List (Op ℝ) → List (ℕ × ℕ)
  | [] => []
  | .measure qs cs :: l => qs.zip cs ++ pairsOf l
  | _ :: l => pairsOf l

def isMeas : Op ℝ → Bool
  | .measure _ _ => true
  | _ => false

theorem wt_measures (n : ℕ) (x : Bits → ℂ) (ms : List (Op ℝ)) (h : ∀ o ∈ ms, isMeas o = true) :
    ∀ ψ m, wt n x ms ψ m = sumB n (fun z => (normSq (ψ z) : ℂ) * x (writeAll z (pairsOf ms) m)) fun _ => false := by
  induction ms with
  | nil =>
    intro ψ m
    show weigh n x (run [] ⟨ψ, m, _⟩) = _
    rw [run_nil]
    show (nrm n ψ : ℂ) * x m = sumB n (fun z => (normSq (ψ z) : ℂ) * x m) _
    unfold nrm
    rw [sumB_eq, sumB_eq]
    push_cast
    rw [Finset.sum_mul]
  | cons o ms ih =>
    intro ψ m
    have ih' := ih fun o ho => h o (by simp [ho])
    match o, h o (by simp) with
    | .measure qs cs, _ =>
      rw [wt_measure]
      have : wt n x ms = fun φ m' => sumB n (fun z => (normSq (φ z) : ℂ) * x (writeAll z (pairsOf ms) m')) fun _ => false := by
        funext φ m'
        exact ih' φ m'
      rw [this, measSum_born n (fun m' z => x (writeAll z (pairsOf ms) m'))]
      congr 1
      funext z
      rw [pairsOf]
      unfold writeAll
      rw [List.foldl_append]

theorem wt_actsL (n : ℕ) (x : Bits → ℂ) (us l : List (Op ℝ)) (hu : ∀ o ∈ us, isUni o = true) {f : State → State}
    (hf : ActsL us f) (ψ : State) (m : Bits) : wt n x (us ++ l) ψ m = wt n x l (f ψ) m := by
  have e : outcomes (us ++ l) = outcomes l := by
    induction us with
    | nil => rfl
    | cons o us ih =>
      have h1 : ∀ us : List (Op ℝ), (∀ o ∈ us, isUni o = true) → outcomes (us ++ l) = outcomes l := by
        intro us
        induction us with
        | nil => intro _; rfl
        | cons o us ih =>
          intro h
          match o, h o (by simp) with
          | .std _, _ => exact ih fun o ho => h o (by simp [ho])
          | .compound _ _, _ => exact ih fun o ho => h o (by simp [ho])
      exact h1 _ hu
  unfold wt
  rw [e]
  congr 1
  funext o
  rw [run_append, hf, Option.bind_some]
  rfl

/-! ### The scan -/

theorem record_ok {qs : List ℕ} : ∀ {cs : List ℕ}, qs.length ≤ cs.length → ∀ m : Perm,
    record qs cs m = .ok ((qs.zip cs).foldl (fun m p => mapSet m p.1 p.2) m) := by
  induction qs with
  | nil => intro cs _ m; rfl
  | cons q qs ih =>
    intro cs h m
    cases cs with
    | nil => simp at h
    | cons c cs => exact ih (by simpa using h) _

/-- A circuit with measurements at the end only. -/
def Static (ops : List (Op ℝ)) : Prop :=
  ∃ us ms, ops = us ++ ms ∧ (∀ o ∈ us, isUni o = true) ∧ ∀ o ∈ ms, isMeas o = true

theorem scan_measures {n ncb : ℕ} (ms : List (Op ℝ)) (h : ∀ o ∈ ms, isMeas o = true) (hg : ∀ o ∈ ms, DGood n ncb o) :
    ∀ s : Scan, scan ms s = .ok { s with has := s.has || !ms.isEmpty, map := (pairsOf ms).foldl (fun m p => mapSet m p.1 p.2) s.map } := by
  induction ms with
  | nil => intro s; simp [scan, pairsOf]
  | cons o ms ih =>
    intro s
    match o, h o (by simp), hg o (by simp) with
    | .measure qs cs, _, hd =>
      rw [scan, record_ok hd.1]
      simp only [Res.bind]
      rw [ih (fun o ho => h o (by simp [ho])) (fun o ho => hg o (by simp [ho]))]
      simp [pairsOf, List.foldl_append]

theorem scan_uni (us l : List (Op ℝ)) (h : ∀ o ∈ us, isUni o = true) :
    ∀ s : Scan, s.has = false → scan (us ++ l) s = scan l s := by
  induction us with
  | nil => intro s _; rfl
  | cons o us ih =>
    intro s hs
    have e : { s with last := s.last && !s.has } = s := by
      obtain ⟨a, b, c, d⟩ := s
      subst hs
      simp
    match o, h o (by simp) with
    | .std _, _ =>
      rw [List.cons_append, scan, e]
      exact ih (fun o ho => h o (by simp [ho])) s hs
    | .compound _ _, _ =>
      rw [List.cons_append, scan, e]
      exact ih (fun o ho => h o (by simp [ho])) s hs

theorem scan_static {n ncb : ℕ} (us ms : List (Op ℝ)) (hu : ∀ o ∈ us, isUni o = true) (hm : ∀ o ∈ ms, isMeas o = true)
    (hg : ∀ o ∈ ms, DGood n ncb o) :
    scan (us ++ ms) {} = .ok ⟨false, !ms.isEmpty, true, (pairsOf ms).foldl (fun m p => mapSet m p.1 p.2) []⟩ := by
  rw [scan_uni us ms hu {} rfl, scan_measures ms hm hg]
  rfl

/-- Circuits that are not of this form are found to be dynamic. -/
theorem scan_dynamic {n ncb : ℕ} (ops : List (Op ℝ)) (hg : ∀ o ∈ ops, DGood n ncb o) :
    ∀ s : Scan, s.dyn = false → ∃ s', scan ops s = .ok s' ∧
      (s.last = false → s'.dyn = true ∨ s'.last = false) ∧
      (s.has = true → ¬ (∀ o ∈ ops, isMeas o = true) → s'.dyn = true ∨ s'.last = false) ∧
      (s.has = false → ¬ Static ops → s'.dyn = true ∨ s'.last = false) := by
  induction ops with
  | nil =>
    intro s hs
    exact ⟨s, rfl, fun h => Or.inr h, fun _ h => absurd (by simp) h, fun _ h => absurd ⟨[], [], rfl, by simp, by simp⟩ h⟩
  | cons o ops ih =>
    intro s hs
    have hg' : ∀ o ∈ ops, DGood n ncb o := fun o ho => hg o (by simp [ho])
    have huni : isUni o = true → ∃ s', scan ops { s with last := s.last && !s.has } = .ok s' ∧
        (s.last = false → s'.dyn = true ∨ s'.last = false) ∧
        (s.has = true → ¬ (∀ o' ∈ o :: ops, isMeas o' = true) → s'.dyn = true ∨ s'.last = false) ∧
        (s.has = false → ¬ Static (o :: ops) → s'.dyn = true ∨ s'.last = false) := by
      intro ho
      obtain ⟨s', h1, h2, h3, h4⟩ := ih hg' { s with last := s.last && !s.has } hs
      refine ⟨s', h1, fun h => h2 (by simp [h]), fun h _ => h2 (by simp [h]), fun h hn => h4 h fun hst => hn ?_⟩
      obtain ⟨us, ms, rfl, k1, k2⟩ := hst
      refine ⟨o :: us, ms, rfl, fun o' ho' => ?_, k2⟩
      rcases List.mem_cons.1 ho' with rfl | ho'
      · exact ho
      · exact k1 o' ho'
    match o with
    | .std a => rw [scan]; exact huni rfl
    | .compound a b => rw [scan]; exact huni rfl
    | .classic c op => exact ⟨_, rfl, fun _ => Or.inl rfl, fun _ _ => Or.inl rfl, fun _ _ => Or.inl rfl⟩
    | .reset qs => exact ⟨_, rfl, fun _ => Or.inl rfl, fun _ _ => Or.inl rfl, fun _ _ => Or.inl rfl⟩
    | .measure qs cs =>
      have hd := hg (.measure qs cs) (by simp)
      rw [scan, record_ok hd.1]
      simp only [Res.bind]
      obtain ⟨s', h1, h2, h3, h4⟩ := ih hg'
        { s with has := true, map := (qs.zip cs).foldl (fun m p => mapSet m p.1 p.2) s.map } hs
      have hall : ¬ (∀ o ∈ Op.measure qs cs :: ops, isMeas o = true) → s'.dyn = true ∨ s'.last = false := by
        intro hn
        refine h3 rfl fun hall => hn fun o ho => ?_
        rcases List.mem_cons.1 ho with rfl | ho
        · rfl
        · exact hall o ho
      refine ⟨s', h1, h2, fun _ => hall, fun _ hn => hall fun hm => hn ⟨[], _, rfl, by simp, hm⟩⟩

theorem filter_static {us ms : List (Op ℝ)} (hu : ∀ o ∈ us, isUni o = true) (hm : ∀ o ∈ ms, isMeas o = true) :
    (us ++ ms).filter isUni = us := by
  rw [List.filter_append, List.filter_eq_self.2 hu, List.filter_eq_nil_iff.2, List.append_nil]
  intro o ho
  match o, hm o ho with
  | .measure _ _, _ => simp [isUni]

theorem finalState_eq (C : Qc) (e : VEdge) : finalState C e = simulate C.n (C.ops.filter isUni) C.init C.out 0 e := by
  unfold finalState simulate
  simp

end MQT.Sim
