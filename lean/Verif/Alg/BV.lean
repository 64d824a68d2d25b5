/-
The Bernstein-Vazirani circuits (`src/algorithms/BernsteinVazirani.cpp`).

The hidden string is a `std::bitset<4096>`; `test(i)` throws for `i ≥ 4096`, and so does `set(i)` in
`generateBitstring`.
-/
import Verif.Alg.Product

set_option autoImplicit false

noncomputable section

open Function (update)

namespace MQT.Alg

open MQT.IR MQT.Opt MQT.Sim

/-- `BV_MAX_BITS`-bit strings (BernsteinVazirani.hpp: `std::bitset<4096>`). -/
def bvBits : ℕ := 4096

/-- `constructBernsteinVaziraniCircuit` (52-93): the operations. -/
def bvOps (s : ℕ → Bool) (nq : ℕ) : List (Op ℝ) :=
  [gate .x 0] ++ (List.range nq).map (fun i => gate .h (i + 1)) ++
    (List.range nq).flatMap (fun i => if s i then [cgate .z (i + 1) 0] else []) ++
    (List.range nq).map (fun i => gate .h (i + 1)) ++
    (List.range nq).map (fun i => measG (i + 1) i)

/-- `createBernsteinVazirani(hiddenString, nq)`: throws when the string is too short. -/
def createBernsteinVazirani (s : ℕ → Bool) (nq : ℕ) : Res (List (Op ℝ)) :=
  if bvBits < nq then .throw else .ok (bvOps s nq)

/-- `getMostSignificantBit` (21-29) on the 4096 bits. -/
def mostSignificantBit (s : ℕ → Bool) : ℕ :=
  (List.range bvBits).foldl (fun m i => if s i then i else m) 0

/-- `constructIterativeBernsteinVaziraniCircuit` (118-160): the operations. -/
def iterativeBVOps (s : ℕ → Bool) (nq : ℕ) : List (Op ℝ) :=
  gate .x 0 :: (List.range nq).flatMap fun i =>
    [gate .h 1] ++ (if s i then [cgate .z 1 0] else []) ++ [gate .h 1, measG 1 i] ++
      (if i < nq - 1 then [.reset [1]] else [])

/-- `createIterativeBernsteinVazirani(hiddenString, nq)`. -/
def createIterativeBernsteinVazirani (s : ℕ → Bool) (nq : ℕ) : Res (List (Op ℝ)) :=
  if bvBits < nq then .throw else .ok (iterativeBVOps s nq)

/-! ### Proofs -/

theorem bv_unitary (s : ℕ → Bool) (n : ℕ) :
    ∃ f, ActsL ([gate .x 0] ++ (List.range n).map (fun i => gate .h (i + 1)) ++
      (List.range n).flatMap (fun i => if s i then [cgate .z (i + 1) 0] else []) ++
      (List.range n).map (fun i => gate .h (i + 1))) f ∧
      f (ket0 (n + 1)) = prodS (n + 1) (fun q => basisV (if q = 0 then true else s (q - 1))) := by
  have hcz : ∀ i, ActsL (if s i then [cgate .z (i + 1) 0] else [])
      (fun ψ => if s i then cphF (i + 1) 0 Real.pi ψ else ψ) := by
    intro i
    cases hs : s i
    · simp only [Bool.false_eq_true, if_false]; exact actsL_nil
    · simp only [if_true]; exact actsL_singleton (acts_cz _ _)
  refine ⟨_, actsL_append (actsL_append (actsL_append (actsL_singleton (acts_x 0))
    (actsL_map _ fun i _ => acts_h (i + 1))) (actsL_flatMap _ fun i _ => hcz i))
    (actsL_map _ fun i _ => acts_h (i + 1)), ?_⟩
  rw [ket0_prod, flip_prod (by omega)]
  have hh := fun a => fold_prod (n := n + 1) (m := n) (o := 1) (F := fun i => hadF (i + 1))
    (G := fun _ => hadV) (fun _ => True) (fun i hi a _ => hadF_prod (by omega) a)
    (fun _ _ _ _ _ => trivial) a trivial
  rw [hh]
  have hz := fun a ha => fold_prod (n := n + 1) (m := n) (o := 1)
    (F := fun i ψ => if s i then cphF (i + 1) 0 Real.pi ψ else ψ)
    (G := fun i v b => if s i then (if b then cis Real.pi else 1) * v b else v b)
    (fun a => a 0 false = 0)
    (fun i hi a ha => by
      cases hs : s i
      · simp [Function.update_eq_self]
      · simp only [if_true]
        exact cph_prod (by omega) (by omega) ha _)
    (fun i hi a v ha => by rw [Function.update_of_ne (by omega)]; exact ha) a ha
  rw [hz, hh]
  · apply prodS_congr
    intro q hq
    by_cases h0 : q = 0
    · subst h0
      funext b
      simp [basisV]
    · have h1 : 1 ≤ q ∧ q < n + 1 := by omega
      rw [if_pos h1, if_pos h1, if_pos h1, Function.update_of_ne h0, if_neg h0]
      funext b
      have := r2_sq'
      cases s (q - 1) <;> cases b <;> simp [hadV, basisV, sgn, cis_pi] <;> grind
  · simp [basisV]

/-- The measured circuit. -/
theorem bv_spec (s : ℕ → Bool) (n : ℕ) (mem orc : ℕ → Bool) :
    ∃ c', run (bvOps s n) ⟨ket0 (n + 1), mem, orc⟩ = some c' ∧ (∀ i < n, c'.mem i = orc i) ∧
      ∀ x : Bits, c'.st x = if (∀ i < n, orc i = s i) ∧ x 0 = true ∧ ∀ i < n, x (i + 1) = s i
        then 1 else 0 := by
  obtain ⟨f, h1, h2⟩ := bv_unitary s n
  obtain ⟨c', k1, k2, k3, -, -⟩ := run_measures n (fun i => i + 1) (fun i => i)
    (Cfg.mapSt f ⟨ket0 (n + 1), mem, orc⟩)
  refine ⟨c', ?_, k3 (fun i _ j _ h => h), fun x => ?_⟩
  · unfold bvOps
    rw [run_append, h1, Option.bind_some]
    exact k1
  · rw [k2]
    show (if ∀ i < n, x (i + 1) = orc i then f (ket0 (n + 1)) x else 0) = _
    rw [h2, prodS_basis]
    have e : (∀ q < n + 1, x q = if q = 0 then true else s (q - 1)) ↔
        x 0 = true ∧ ∀ i < n, x (i + 1) = s i := by
      constructor
      · intro h
        exact ⟨by simpa using h 0 (by omega), fun i hi => by simpa using h (i + 1) (by omega)⟩
      · rintro ⟨h, h'⟩ q hq
        by_cases h0 : q = 0
        · rw [h0, if_pos rfl]; exact h
        · rw [if_neg h0, ← h' (q - 1) (by omega)]
          congr 1; omega
    by_cases ha : ∀ i < n, x (i + 1) = orc i
    · rw [if_pos ha]
      apply if_congr _ rfl rfl
      rw [e]
      constructor
      · rintro ⟨h, h'⟩
        exact ⟨fun i hi => by rw [← ha i hi, h' i hi], h, h'⟩
      · rintro ⟨_, h⟩; exact h
    · rw [if_neg ha, if_neg]
      rintro ⟨h, -, h'⟩
      exact ha fun i hi => by rw [h' i hi, h i hi]

/-- `getMostSignificantBit` bounds the set bits. -/
theorem msb_spec (s : ℕ → Bool) (i : ℕ) (hi : i < bvBits) (h : s i = true) :
    i ≤ mostSignificantBit s := by
  unfold mostSignificantBit
  have key : ∀ m, i < m → i ≤ (List.range m).foldl (fun m i => if s i then i else m) 0 := by
    intro m
    induction m with
    | zero => intro h; omega
    | succ m ih =>
      intro hm
      rw [List.range_succ, List.foldl_append, List.foldl_cons, List.foldl_nil]
      by_cases e : i = m
      · rw [← e, h, if_pos rfl]
      · split_ifs
        · omega
        · exact ih (by omega)
  exact key _ hi

/-! ### The iterative circuit -/

/-- The two-qubit basis state with flag 1 and working qubit `b`, or the zero vector. -/
def bvS (z : Prop) [Decidable z] (b : Bool) : State :=
  fun x => if z ∧ x 0 = true ∧ x 1 = b then 1 else 0

theorem bvS_prod (b : Bool) : (bvS True b : State) = prodS 2 (fun q => basisV (if q = 0 then true else b)) := by
  funext x
  rw [prodS_basis, bvS]
  apply if_congr _ rfl rfl
  constructor
  · rintro ⟨-, h, h'⟩ q hq
    obtain rfl | rfl : q = 0 ∨ q = 1 := by omega
    · exact h
    · exact h'
  · intro h
    exact ⟨trivial, by simpa using h 0 (by omega), by simpa using h 1 (by omega)⟩

theorem bvStep_unitary (b : Bool) : ∃ f, ActsL ([gate .h 1] ++ (if b then [cgate .z 1 0] else []) ++
    [gate .h 1]) f ∧ (∀ (ψ : State) (z : ℂ) , f (fun x => z * ψ x) = fun x => z * f ψ x) ∧
    f (bvS True false) = bvS True b := by
  have hcz : ActsL (if b then [cgate .z 1 0] else [])
      (fun ψ => if b then cphF 1 0 Real.pi ψ else ψ) := by
    cases b
    · simp only [Bool.false_eq_true, if_false]; exact actsL_nil
    · simp only [if_true]; exact actsL_singleton (acts_cz _ _)
  refine ⟨_, actsL_append (actsL_append (actsL_singleton (acts_h 1)) hcz)
    (actsL_singleton (acts_h 1)), ?_, ?_⟩
  · intro ψ z
    funext x
    cases b
    · simp only [Bool.false_eq_true, if_false, hadF_apply]; ring
    · simp only [if_true, hadF_apply, cphF]; ring
  · rw [bvS_prod, hadF_prod (by omega)]
    have e : (if b then cphF 1 0 Real.pi (prodS 2 (update (fun q => basisV (if q = 0 then true else false)) 1
        (hadV (basisV (if 1 = 0 then true else false))))) else
        prodS 2 (update (fun q => basisV (if q = 0 then true else false)) 1
        (hadV (basisV (if 1 = 0 then true else false)))))
        = prodS 2 (update (fun q => basisV (if q = 0 then true else false)) 1
        (fun c => (if b && c then -1 else 1) * hadV (basisV false) c)) := by
      cases b
      · simp
      · simp only [if_true]
        rw [cph_prod (by omega) (by omega) (by simp [basisV])]
        apply prodS_congr
        intro q hq
        obtain rfl | rfl : q = 0 ∨ q = 1 := by omega
        · simp
        · funext c; simp [cis_pi]
    rw [e, hadF_prod (by omega), bvS_prod]
    apply prodS_congr
    intro q hq
    obtain rfl | rfl : q = 0 ∨ q = 1 := by omega
    · simp
    · funext c
      have := r2_sq'
      cases b <;> cases c <;> simp [hadV, basisV, sgn] <;> grind

theorem bvS_scale (z : Prop) [Decidable z] (b : Bool) :
    bvS z b = fun x => (if z then 1 else 0) * bvS True b x := by
  funext x
  by_cases h : z <;> simp [bvS, h]

/-- One round without the reset. -/
theorem iter_round (b : Bool) (z : Prop) [Decidable z] (i : ℕ) (mem orc : ℕ → Bool) :
    run ([gate .h 1] ++ (if b then [cgate .z 1 0] else []) ++ [gate .h 1, measG 1 i])
      ⟨bvS z false, mem, orc⟩
      = some ⟨bvS (z ∧ orc 0 = b) b, update mem i (orc 0), fun k => orc (k + 1)⟩ := by
  obtain ⟨f, h1, h2, h3⟩ := bvStep_unitary b
  have e : [gate .h 1] ++ (if b then [cgate .z 1 0] else []) ++ [gate .h 1, measG 1 i]
      = ([gate .h 1] ++ (if b then [cgate .z 1 0] else []) ++ [gate .h 1]) ++ [measG 1 i] := by
    simp
  rw [e, run_append, h1, Option.bind_some, run_cons, measG, exec]
  simp only [Option.bind_some, List.zip_cons_cons, List.zip_nil_right, List.foldl_cons, List.foldl_nil,
    run_nil, Cfg.mapSt, measure1]
  congr 2
  funext x
  rw [proj_apply, bvS_scale z, h2, h3]
  simp only [bvS]
  by_cases hx : x 1 = orc 0
  · rw [if_pos hx, hx]
    by_cases hz : z <;> simp [hz]
    apply if_congr _ rfl rfl
    exact ⟨fun h => ⟨h.2, h⟩, fun h => h.2⟩
  · rw [if_neg hx, if_neg]
    rintro ⟨⟨-, h⟩, -, h'⟩
    exact hx (by rw [h, h'])

theorem flip_apply (q : ℕ) (ψ : State) (x : Bits) : app1 flipM q ψ x = ψ (flipB q x) := by
  unfold app1 flipM flipB
  rw [Fintype.sum_bool]
  cases x q <;> simp

theorem iter_reset (b : Bool) (z : Prop) [Decidable z] (mem orc : ℕ → Bool) :
    run [.reset [1]] ⟨bvS z b, mem, orc⟩
      = some ⟨bvS (z ∧ orc 0 = b) false, mem, fun k => orc (k + 1)⟩ := by
  rw [run_cons, exec]
  simp only [Option.bind_some, List.foldl_cons, List.foldl_nil, run_nil, reset1]
  congr 2
  funext x
  cases ho : orc 0
  · simp only [Bool.false_eq_true, if_false]
    rw [proj_apply]
    cases b <;> cases hx : x 1 <;> simp [bvS, hx]
  · simp only [if_true]
    rw [flip_apply, proj_apply]
    cases b <;> cases hx : x 1 <;> simp [bvS, flipB, hx]

/-- All rounds but the last, then the last one. -/
theorem iter_rounds (s : ℕ → Bool) (n k : ℕ) (hk : k < n) (mem orc : ℕ → Bool) :
    ∃ mem', run ((List.range k).flatMap fun i =>
        [gate .h 1] ++ (if s i then [cgate .z 1 0] else []) ++ [gate .h 1, measG 1 i] ++
          (if i < n - 1 then [.reset [1]] else [])) ⟨bvS True false, mem, orc⟩
      = some ⟨bvS (∀ i < k, orc (2 * i) = s i ∧ orc (2 * i + 1) = s i) false, mem',
          fun j => orc (j + 2 * k)⟩ ∧ ∀ i < k, mem' i = orc (2 * i) := by
  induction k with
  | zero =>
    refine ⟨mem, ?_, fun i hi => absurd hi (by omega)⟩
    rw [List.range_zero, List.flatMap_nil, run_nil]
    congr 2
    funext x
    simp [bvS]
  | succ k ih =>
    obtain ⟨mem', h1, h2⟩ := ih (by omega)
    refine ⟨update mem' k (orc (2 * k)), ?_, fun i hi => ?_⟩
    · rw [List.range_succ, List.flatMap_append, run_append, h1, Option.bind_some, List.flatMap_cons,
        List.flatMap_nil, List.append_nil, run_append, iter_round, Option.bind_some,
        if_pos (show k < n - 1 by omega), iter_reset]
      have e : ((∀ i < k, orc (2 * i) = s i ∧ orc (2 * i + 1) = s i) ∧ orc (0 + 2 * k) = s k) ∧
          orc (0 + 1 + 2 * k) = s k ↔ ∀ i < k + 1, orc (2 * i) = s i ∧ orc (2 * i + 1) = s i := by
        constructor
        · rintro ⟨⟨h, h'⟩, h''⟩ i hi
          by_cases e : i = k
          · subst e
            rw [Nat.zero_add] at h'
            rw [show 0 + 1 + 2 * i = 2 * i + 1 by omega] at h''
            exact ⟨h', h''⟩
          · exact h i (by omega)
        · intro h
          have hk := h k (by omega)
          refine ⟨⟨fun i hi => h i (by omega), ?_⟩, ?_⟩
          · rw [Nat.zero_add]; exact hk.1
          · rw [show 0 + 1 + 2 * k = 2 * k + 1 by omega]; exact hk.2
      congr 2
      · funext x
        simp only [bvS]
        apply if_congr _ rfl rfl
        rw [e]
      · rw [Nat.zero_add]
      · funext j; congr 1; omega
    · by_cases e : i = k
      · rw [e, Function.update_self]
      · rw [Function.update_of_ne e]; exact h2 i (by omega)

theorem iter_spec (s : ℕ → Bool) (n : ℕ) (hn : 0 < n) (mem orc : ℕ → Bool) :
    ∃ c', run (iterativeBVOps s n) ⟨ket0 2, mem, orc⟩ = some c' ∧ (∀ i < n, c'.mem i = orc (2 * i)) ∧
      ∀ x : Bits, c'.st x = if (∀ i < n, orc (2 * i) = s i) ∧ (∀ i < n - 1, orc (2 * i + 1) = s i) ∧
        x 0 = true ∧ x 1 = s (n - 1) then 1 else 0 := by
  obtain ⟨m, rfl⟩ : ∃ m, n = m + 1 := ⟨n - 1, by omega⟩
  obtain ⟨mem', h1, h2⟩ := iter_rounds s (m + 1) m (by omega) mem orc
  have hx : pull (flipB 0) (ket0 2) = bvS True false := by
    rw [ket0_prod, flip_prod (by omega), bvS_prod]
    apply prodS_congr
    intro q hq
    obtain rfl | rfl : q = 0 ∨ q = 1 := by omega
    · funext b; cases b <;> simp [basisV]
    · simp
  unfold iterativeBVOps
  rw [run_cons, acts_x, Option.bind_some, List.range_succ, List.flatMap_append, run_append]
  simp only [Cfg.mapSt]
  rw [hx, h1, Option.bind_some, List.flatMap_cons, List.flatMap_nil, List.append_nil, run_append,
    iter_round, Option.bind_some, if_neg (show ¬ m < m + 1 - 1 by omega), run_nil]
  refine ⟨_, rfl, fun i hi => ?_, fun x => ?_⟩
  · show update mem' m (orc (0 + 2 * m)) i = _
    by_cases e : i = m
    · subst e
      rw [Function.update_self, Nat.zero_add]
    · rw [Function.update_of_ne e]; exact h2 i (by omega)
  · simp only [bvS, Nat.add_sub_cancel, Nat.zero_add]
    apply if_congr _ rfl rfl
    constructor
    · rintro ⟨⟨h, h'⟩, a, b⟩
      refine ⟨fun i hi => ?_, fun i hi => (h i hi).2, a, b⟩
      by_cases e : i = m
      · rw [e]; exact h'
      · exact (h i (by omega)).1
    · rintro ⟨h, h', a, b⟩
      exact ⟨⟨fun i hi => ⟨h i (by omega), h' i hi⟩, h m (by omega)⟩, a, b⟩

end MQT.Alg
