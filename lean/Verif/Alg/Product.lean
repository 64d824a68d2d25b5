/-
Product states, measurements of several qubits, and how the gates act on product states.
-/
import Verif.Alg.Common

set_option autoImplicit false

noncomputable section

open Function (update)

namespace MQT.Alg

open MQT.IR MQT.Opt MQT.Sim

/-! ### Product states -/

/-- The product state in which qubit `q < n` has the amplitudes `a q`. -/
def prodS (n : ℕ) (a : ℕ → Bool → ℂ) : State := fun x => ∏ q ∈ Finset.range n, a q (x q)

/-- Amplitudes of `|0⟩`, of `|1⟩`, in general of `|b⟩`. -/
def basisV (b : Bool) : Bool → ℂ := fun c => if c = b then 1 else 0

/-- The Hadamard on the amplitudes of one qubit. -/
def hadV (v : Bool → ℂ) : Bool → ℂ := fun b => r2 * (v false + sgn b * v true)

theorem prodS_congr {n : ℕ} {a b : ℕ → Bool → ℂ} (h : ∀ q < n, a q = b q) : prodS n a = prodS n b := by
  funext x
  exact Finset.prod_congr rfl fun q hq => by rw [h q (Finset.mem_range.1 hq)]

theorem prodS_basis (n : ℕ) (s : ℕ → Bool) (x : Bits) :
    prodS n (fun q => basisV (s q)) x = if ∀ q < n, x q = s q then 1 else 0 := by
  unfold prodS basisV
  split_ifs with h
  · exact Finset.prod_eq_one fun q hq => if_pos (h q (Finset.mem_range.1 hq))
  · push Not at h
    obtain ⟨q, hq, hne⟩ := h
    exact Finset.prod_eq_zero (Finset.mem_range.2 hq) (if_neg hne)

theorem ket0_prod (n : ℕ) : ket0 n = prodS n (fun _ => basisV false) := by
  funext x
  rw [prodS_basis n (fun _ => false)]
  rfl

/-- One qubit of a product state. -/
theorem prodS_split {n k : ℕ} (hk : k < n) (a : ℕ → Bool → ℂ) (x : Bits) :
    prodS n a x = a k (x k) * ∏ q ∈ (Finset.range n).erase k, a q (x q) := by
  unfold prodS
  rw [Finset.mul_prod_erase _ (fun q => a q (x q)) (Finset.mem_range.2 hk)]

theorem prodS_update {n k : ℕ} (hk : k < n) (a : ℕ → Bool → ℂ) (v : Bool → ℂ) (x : Bits) :
    prodS n (update a k v) x = v (x k) * ∏ q ∈ (Finset.range n).erase k, a q (x q) := by
  rw [prodS_split hk, Function.update_self]
  congr 1
  exact Finset.prod_congr rfl fun q hq => by rw [Function.update_of_ne (Finset.ne_of_mem_erase hq)]

theorem prodS_at {n k : ℕ} (hk : k < n) (a : ℕ → Bool → ℂ) (b : Bool) (x : Bits) :
    prodS n a (update x k b) = a k b * ∏ q ∈ (Finset.range n).erase k, a q (x q) := by
  rw [prodS_split hk, Function.update_self]
  congr 1
  exact Finset.prod_congr rfl fun q hq => by rw [Function.update_of_ne (Finset.ne_of_mem_erase hq)]

theorem hadF_prod {n k : ℕ} (hk : k < n) (a : ℕ → Bool → ℂ) :
    hadF k (prodS n a) = prodS n (update a k (hadV (a k))) := by
  funext x
  rw [hadF_apply, prodS_at hk, prodS_at hk, prodS_update hk, hadV]
  ring

theorem flip_prod {n k : ℕ} (hk : k < n) (a : ℕ → Bool → ℂ) :
    pull (flipB k) (prodS n a) = prodS n (update a k fun b => a k (!b)) := by
  funext x
  rw [pull, flipB, prodS_at hk, prodS_update hk]

/-- A controlled phase whose target is `|1⟩` acts on its control only. -/
theorem cph_prod {n c t : ℕ} (hc : c < n) (ht : t < n) {a : ℕ → Bool → ℂ}
    (h0 : a t false = 0) (θ : ℝ) :
    cphF c t θ (prodS n a) = prodS n (update a c fun b => (if b then cis θ else 1) * a c b) := by
  funext x
  rw [cphF, prodS_update hc]
  by_cases hx : x t = true
  · rw [prodS_split hc]
    cases h : x c
    · simp
    · simp [hx]; ring
  · have hf : x t = false := by simpa using hx
    have hz : prodS n a x = 0 := by rw [prodS_split ht, hf, h0, zero_mul]
    rw [hz, mul_zero]
    rw [prodS_split hc] at hz
    rcases mul_eq_zero.1 hz with h | h
    · rw [h, mul_zero, zero_mul]
    · rw [h, mul_zero]

/-- Gates on different qubits of a product state, one after the other. -/
theorem fold_prod {n m o : ℕ} {F : ℕ → State → State} {G : ℕ → (Bool → ℂ) → Bool → ℂ}
    (P : (ℕ → Bool → ℂ) → Prop)
    (hF : ∀ i < m, ∀ a, P a → F i (prodS n a) = prodS n (update a (i + o) (G i (a (i + o)))))
    (hP : ∀ i < m, ∀ a v, P a → P (update a (i + o) v))
    (a : ℕ → Bool → ℂ) (ha : P a) :
    (List.range m).foldl (fun ψ i => F i ψ) (prodS n a)
      = prodS n (fun q => if o ≤ q ∧ q < m + o then G (q - o) (a q) else a q) := by
  have key : ∀ k ≤ m, P (fun q => if o ≤ q ∧ q < k + o then G (q - o) (a q) else a q) ∧
      (List.range k).foldl (fun ψ i => F i ψ) (prodS n a)
      = prodS n (fun q => if o ≤ q ∧ q < k + o then G (q - o) (a q) else a q) := by
    intro k
    induction k with
    | zero =>
      intro _
      have : (fun q => if o ≤ q ∧ q < 0 + o then G (q - o) (a q) else a q) = a := by
        funext q; rw [if_neg (by omega)]
      rw [this]
      exact ⟨ha, rfl⟩
    | succ k ih =>
      intro hk
      obtain ⟨h1, h2⟩ := ih (by omega)
      have e : update (fun q => if o ≤ q ∧ q < k + o then G (q - o) (a q) else a q) (k + o)
          (G k ((fun q => if o ≤ q ∧ q < k + o then G (q - o) (a q) else a q) (k + o)))
          = fun q => if o ≤ q ∧ q < k + 1 + o then G (q - o) (a q) else a q := by
        funext q
        by_cases hq : q = k + o
        · subst hq
          rw [Function.update_self, if_pos (by omega)]
          simp
        · rw [Function.update_of_ne hq]
          by_cases h : o ≤ q ∧ q < k + o
          · rw [if_pos h, if_pos (by omega)]
          · rw [if_neg h, if_neg (by omega)]
      refine ⟨?_, ?_⟩
      · rw [← e]; exact hP k (by omega) _ _ h1
      · rw [List.range_succ, List.foldl_append, h2, List.foldl_cons, List.foldl_nil, hF k (by omega) _ h1, e]
  exact (key m le_rfl).2

/-! ### Measuring several qubits -/

theorem proj_apply (b : Bool) (q : ℕ) (ψ : State) (x : Bits) :
    app1 (projM b) q ψ x = if x q = b then ψ x else 0 := by
  unfold app1 projM
  rw [Fintype.sum_bool]
  by_cases h : x q = b
  · subst h
    cases hx : x q
    · simp [show update x q false = x by rw [← hx, Function.update_eq_self]]
    · simp [show update x q true = x by rw [← hx, Function.update_eq_self]]
  · simp [h]

/-- Measure `m` qubits one after the other. -/
theorem run_measures (m : ℕ) (f g : ℕ → ℕ) (c : Cfg) :
    ∃ c', run ((List.range m).map fun i => measG (f i) (g i)) c = some c' ∧
      (∀ x, c'.st x = if ∀ i < m, x (f i) = c.orc i then c.st x else 0) ∧
      ((∀ i < m, ∀ j < m, g i = g j → i = j) → ∀ i < m, c'.mem (g i) = c.orc i) ∧
      (∀ b, (∀ i < m, g i ≠ b) → c'.mem b = c.mem b) ∧
      c'.orc = fun k => c.orc (k + m) := by
  induction m with
  | zero => exact ⟨c, run_nil c, fun x => by simp, fun _ i hi => absurd hi (by omega), fun _ _ => rfl, rfl⟩
  | succ m ih =>
    obtain ⟨c', h1, h2, h3, h4, h5⟩ := ih
    refine ⟨measure1 (f m) (g m) c', ?_, fun x => ?_, fun hg i hi => ?_, fun b hb => ?_, ?_⟩
    · rw [List.range_succ, List.map_append, run_append, h1, Option.bind_some, List.map_cons,
        List.map_nil, run_cons, measG, exec]
      exact run_nil _
    · have ho : c'.orc 0 = c.orc m := by rw [h5]; simp
      show app1 (projM (c'.orc 0)) (f m) c'.st x = _
      rw [proj_apply, h2, ho]
      by_cases hm : x (f m) = c.orc m
      · rw [if_pos hm]
        apply if_congr _ rfl rfl
        constructor
        · intro h i hi
          by_cases e : i = m
          · rw [e]; exact hm
          · exact h i (by omega)
        · intro h i hi; exact h i (by omega)
      · rw [if_neg hm, if_neg (fun h => hm (h m (by omega)))]
    · have ho : c'.orc 0 = c.orc m := by rw [h5]; simp
      show update c'.mem (g m) (c'.orc 0) (g i) = _
      by_cases e : i = m
      · rw [e, Function.update_self, ho]
      · rw [Function.update_of_ne (fun h => e (hg i hi m (by omega) h))]
        exact h3 (fun i hi j hj => hg i (by omega) j (by omega)) i (by omega)
    · show update c'.mem (g m) (c'.orc 0) b = _
      rw [Function.update_of_ne (fun h => hb m (by omega) h.symm)]
      exact h4 b fun i hi => hb i (by omega)
    · show (fun n => c'.orc (n + 1)) = _
      rw [h5]
      funext k
      show c.orc (k + 1 + m) = c.orc (k + (m + 1))
      congr 1; omega

end MQT.Alg
