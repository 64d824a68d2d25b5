/-
Changing permutations, simulating circuits and building their functionality.

Sources in /repo: include/mqt-core/dd/Operations.hpp 222-279 (`changePermutation`);
src/dd/Simulation.cpp 213-243 (`simulate`); src/dd/FunctionalityConstruction.cpp 22-48
(`buildFunctionality`), 51-113 (the recursive helper), 116-142 (`buildFunctionalityRecursive`).

Simplifications: weights are exact, reference counting and garbage collection are left out (they
do not change the represented functions, see `Verif.Memory`), no qubit is marked as garbage
(`reduceGarbage` then returns its argument).  The three instances of `changePermutation` (states,
matrices from the left, matrices from the right) differ in the multiplication only, which is a
parameter here.
-/
import Verif.Sim.GetDD

set_option autoImplicit false

noncomputable section

open Classical
open Function (update)

namespace MQT.Sim

open MQT.IR MQT.DD MQT.Opt

/-! ### Model -/

/-- `permutation.at(k) = v` for an existing key. -/
def Perm.set (p : Perm) (k v : ℕ) : Perm := p.map fun e => if e.1 = k then (k, v) else e

/-- The first key with the given value; 0 if there is none. -/
def Perm.keyOf (p : Perm) (v : ℕ) : ℕ := ((p.find? fun e => decide (e.2 = v)).map Prod.fst).getD 0

/-- `opToTwoQubitGateMatrix(qc::SWAP)`. -/
def swapMat : Mat2 := mat2 1 0 0 0 0 0 1 0 0 1 0 0 0 0 0 1

/-- The loop of `changePermutation` over the entries of `to`. -/
def changeLoop {E : Type} (n : ℕ) (mul : MEdge → E → Option E) :
    List (ℕ × ℕ) → Perm → E → Res (Perm × E)
  | [], p, e => .ok (p, e)
  | (i, goal) :: tgt, p, e =>
    match p.lookup i with
    | none => .ub
    | some current =>
      if current = goal then changeLoop n mul tgt p e
      else
        match p.lookup (p.keyOf goal) with
        | none => .throw
        | some vj =>
          match makeTwoQubitGateDD n swapMat [] current vj with
          | none => .throw
          | some s =>
            match mul s e with
            | none => .ub
            | some e' => changeLoop n mul tgt ((p.set i goal).set (p.keyOf goal) current) e'

/-- `changePermutation`; `zero` tells whether the diagram is the zero terminal. -/
def changePermutation {E : Type} (n : ℕ) (mul : MEdge → E → Option E) (zero : E → Prop)
    (e : E) (from_ tgt : Perm) : Res (Perm × E) :=
  if zero e then .ok (from_, e) else changeLoop n mul tgt from_ e

/-- An uncontrolled SWAP. -/
def isSwap : Op ℝ → Option (List ℕ)
  | .std o => if o.type = .swap ∧ o.controls = ∅ then some o.targets else none
  | _ => none

/-- `std::swap(permutation.at(a), permutation.at(b))`. -/
def Perm.swap (p : Perm) (a b : ℕ) : Option Perm :=
  match p.lookup a, p.lookup b with
  | some u, some v => some ((p.set a v).set b u)
  | _, _ => none

/-- The loop over the operations in `simulate` and `buildFunctionality`. -/
def simLoop {E : Type} (n : ℕ) (mul : MEdge → E → Option E) :
    List (Op ℝ) → Perm → E → Res (Perm × E)
  | [], p, e => .ok (p, e)
  | op :: ops, p, e =>
    match isSwap op with
    | some (a :: b :: _) =>
      match p.swap a b with
      | some p' => simLoop n mul ops p' e
      | none => .throw
    | some _ => .ub
    | none =>
      (getDD n p false op).bind fun m =>
        match mul m e with
        | none => .ub
        | some e' => simLoop n mul ops p e'

/-- `simulate` for a circuit without garbage qubits. -/
def simulate (n : ℕ) (ops : List (Op ℝ)) (init out : Perm) (gphase : ℝ) (e : VEdge) : Res VEdge :=
  (simLoop n mvmul ops init e).bind fun r =>
    (changePermutation n mvmul (fun e : VEdge => e.p = .term ∧ e.w = 0) r.2 r.1 out).bind fun r =>
      .ok (if |gphase| > 0 then ⟨r.2.p, r.2.w * ⟨Real.cos gphase, Real.sin gphase⟩⟩ else r.2)

/-- The permutation after `changePermutation`, by itself. -/
def permAfter : List (ℕ × ℕ) → Perm → Perm
  | [], p => p
  | (i, goal) :: tgt, p =>
    if p.lookup i = some goal then permAfter tgt p
    else permAfter tgt ((p.set i goal).set (p.keyOf goal) ((p.lookup i).getD 0))

/-- The permutation after the virtual SWAP of one operation, by itself. -/
def stepPerm (p : Perm) (op : Op ℝ) : Perm :=
  match isSwap op with
  | some (a :: b :: _) => (p.swap a b).getD p
  | _ => p

/-! ### Maps -/

theorem lookup_map_set (p : Perm) (k v q : ℕ) :
    (p.set k v).lookup q = if q = k then (p.lookup q).map (fun _ => v) else p.lookup q := by
  unfold Perm.set
  induction p with
  | nil => simp
  | cons a p ih =>
    obtain ⟨x, y⟩ := a
    rw [List.map_cons]
    by_cases hx : x = k
    · subst hx
      rw [if_pos rfl]
      by_cases hq : q = x
      · subst hq; simp
      · rw [List.lookup_cons, List.lookup_cons, ih]
        have : (q == x) = false := by simpa using hq
        simp [this, hq]
    · rw [if_neg hx]
      by_cases hq : q = x
      · subst hq; simp [hx]
      · rw [List.lookup_cons, List.lookup_cons, ih]
        have : (q == x) = false := by simpa using hq
        simp only [this]

theorem mem_of_lookup {p : Perm} {k v : ℕ} (h : p.lookup k = some v) : (k, v) ∈ p := by
  induction p with
  | nil => simp at h
  | cons a p ih =>
    obtain ⟨x, y⟩ := a
    rw [List.lookup_cons] at h
    by_cases hx : k = x
    · subst hx
      simp only [beq_self_eq_true, Option.some.injEq] at h
      subst h
      exact List.mem_cons_self
    · have : (k == x) = false := by simpa using hx
      simp only [this] at h
      exact List.mem_cons_of_mem _ (ih h)

/-- The map is injective. -/
def Perm.Inj (p : Perm) : Prop := ∀ a b v, p.lookup a = some v → p.lookup b = some v → a = b

theorem keyOf_eq {p : Perm} (hn : (p.map Prod.fst).Nodup) (hi : p.Inj) {j v : ℕ}
    (h : p.lookup j = some v) : p.keyOf v = j := by
  unfold Perm.keyOf
  cases hf : p.find? (fun e => decide (e.2 = v)) with
  | none =>
    rw [List.find?_eq_none] at hf
    have := mem_of_lookup h
    exact absurd (by simp) (hf _ this)
  | some e =>
    obtain ⟨a, b⟩ := e
    have h1 := List.mem_of_find?_eq_some hf
    have h2 := List.find?_some hf
    simp only [decide_eq_true_eq] at h2
    subst h2
    have h3 : p.lookup a = some b := by
      clear hf h hi
      induction p with
      | nil => simp at h1
      | cons c p ih =>
        obtain ⟨x, y⟩ := c
        rw [List.map_cons, List.nodup_cons] at hn
        rcases List.mem_cons.1 h1 with h1 | h2
        · cases h1; simp
        · rw [List.lookup_cons]
          have : (a == x) = false := by
            simp only [beq_eq_false_iff_ne, ne_eq]
            rintro rfl
            exact hn.1 (List.mem_map.2 ⟨_, h2, rfl⟩)
          simp only [this]
          exact ih hn.2 h2
    exact hi a j b h3 h

/-! ### SWAP -/

theorem comp_swap {a b : ℕ} (x : Bits) : x ∘ Equiv.swap a b = swapMap a b x := by
  funext q
  unfold swapMap
  rw [Function.comp]
  by_cases h1 : q = b
  · subst h1; rw [Equiv.swap_apply_right, Function.update_self]
  · rw [Function.update_of_ne h1]
    by_cases h2 : q = a
    · subst h2; rw [Equiv.swap_apply_left, Function.update_self]
    · rw [Function.update_of_ne h2, Equiv.swap_apply_of_ne_of_ne h2 h1]

theorem swapDD_spec {n a b : ℕ} (ha : a < n) (hb : b < n) (hab : a ≠ b) :
    ∃ s, makeTwoQubitGateDD n swapMat [] a b = some s ∧ MECan n s ∧
      ∀ (ψ : State) z, matVec n (s.mat n) ψ z = ψ (z ∘ Equiv.swap a b) := by
  obtain ⟨s, h1, h2, h3⟩ := c41_two_qubit_action n swapMat [] a b List.Pairwise.nil (by simp) ha hb
    hab (by simp) (by simp) ∅ (by simp)
  refine ⟨s, h1, h2, fun ψ z => ?_⟩
  rw [h3, ctl_empty]
  have hd := swap_denote (o := { type := .swap, targets := [a, b] }) rfl rfl rfl
  rw [StdOp.denote_two_of (q0 := a) (q1 := b) (M := swapMat) rfl rfl rfl, ctl_empty] at hd
  rw [Option.some.inj hd, comp_swap]
  rfl

/-! ### Changing a permutation -/

/-- What a multiplication with a SWAP diagram has to do to diagrams of kind `E`. -/
structure SwapStep (n : ℕ) {E : Type} (mul : MEdge → E → Option E) (Ok : E → Prop)
    (R : Equiv.Perm ℕ → E → E → Prop) : Prop where
  refl : ∀ e, R 1 e e
  trans : ∀ σ τ e e' e'', R σ e e' → R τ e' e'' → R (τ * σ) e e''
  step : ∀ a b, a < n → b < n → a ≠ b → ∀ e, Ok e → ∃ s e',
    makeTwoQubitGateDD n swapMat [] a b = some s ∧ mul s e = some e' ∧ Ok e' ∧
      R (Equiv.swap a b) e e'

theorem set_fst (p : Perm) (k v : ℕ) : (p.set k v).map Prod.fst = p.map Prod.fst := by
  unfold Perm.set
  rw [List.map_map]
  apply List.map_congr_left
  intro e _
  simp only [Function.comp]
  split_ifs with h
  · exact h.symm
  · rfl

/-- Exchanging two values of an injective map composes it with a transposition. -/
theorem set_set_lookup {p : Perm} (hi : p.Inj) {i j u v : ℕ} (h1 : p.lookup i = some u)
    (h2 : p.lookup j = some v) (q : ℕ) :
    ((p.set i v).set j u).lookup q = (p.lookup q).map (Equiv.swap u v) := by
  rw [lookup_map_set, lookup_map_set]
  by_cases hj : q = j
  · subst hj
    rw [if_pos rfl, h2]
    split_ifs <;> simp
  · rw [if_neg hj]
    by_cases hq : q = i
    · subst hq
      rw [if_pos rfl, h1]
      simp
    · rw [if_neg hq]
      cases hl : p.lookup q with
      | none => rfl
      | some w =>
        rw [Option.map_some, Equiv.swap_apply_of_ne_of_ne]
        · rintro rfl; exact hq (hi q i w hl h1)
        · rintro rfl; exact hj (hi q j w hl h2)

theorem changeLoop_spec {n : ℕ} {E : Type} {mul : MEdge → E → Option E} {Ok : E → Prop}
    {R : Equiv.Perm ℕ → E → E → Prop} (hs : SwapStep n mul Ok R) (tgt : List (ℕ × ℕ)) :
    ∀ (p : Perm) (e : E) (done : List (ℕ × ℕ)), (p.map Prod.fst).Nodup → p.Inj →
    (∀ k v, p.lookup k = some v → v < n) → Ok e →
    ((done ++ tgt).map Prod.fst).Nodup → ((done ++ tgt).map Prod.snd).Nodup →
    (∀ x ∈ tgt, (p.lookup x.1).isSome ∧ ∃ k, p.lookup k = some x.2) →
    (∀ x ∈ done, p.lookup x.1 = some x.2) →
    ∃ p' e' τ, changeLoop n mul tgt p e = .ok (p', e') ∧ p' = permAfter tgt p ∧ Ok e' ∧ R τ e e' ∧
      (∀ k, p'.lookup k = (p.lookup k).map τ) ∧
      (∀ v, (∀ k, p.lookup k ≠ some v) → τ v = v) ∧
      ∀ x ∈ done ++ tgt, p'.lookup x.1 = some x.2 := by
  induction tgt with
  | nil =>
    intro p e done hn hi hlt hok h1 h2 h3 h4
    refine ⟨p, e, 1, by rw [changeLoop], by rw [permAfter], hok, hs.refl e, fun k => by cases p.lookup k <;> rfl,
      fun v _ => rfl, ?_⟩
    simpa using h4
  | cons x tgt ih =>
    intro p e done hn hi hlt hok h1 h2 h3 h4
    obtain ⟨i, goal⟩ := x
    obtain ⟨hsome, j, hj⟩ := h3 (i, goal) (by simp)
    obtain ⟨cur, hcur⟩ := Option.isSome_iff_exists.1 hsome
    simp only at hj hcur
    have happ : done ++ (i, goal) :: tgt = (done ++ [(i, goal)]) ++ tgt := by simp
    by_cases hc : cur = goal
    · obtain ⟨p', e', τ, k1, k0, k2, k3, k4, k5, k6⟩ := ih p e (done ++ [(i, goal)]) hn hi hlt hok
        (by rw [← happ]; exact h1) (by rw [← happ]; exact h2)
        (fun x hx => h3 x (List.mem_cons_of_mem _ hx)) (by
          intro x hx
          rcases List.mem_append.1 hx with hx | hx
          · exact h4 x hx
          · rw [List.mem_singleton] at hx; subst hx; rw [hcur, hc])
      refine ⟨p', e', τ, ?_, by rw [permAfter, if_pos (by rw [hcur, hc]), k0], k2, k3, k4, k5, by rw [happ]; exact k6⟩
      rw [changeLoop, hcur]
      simp only
      rw [if_pos hc]
      exact k1
    · have hkey := keyOf_eq hn hi hj
      obtain ⟨s, e1, s1, s2, s3, s4⟩ := hs.step cur goal (hlt i cur hcur) (hlt j goal hj) hc e hok
      have hset := set_set_lookup hi hcur hj
      have hinv : ∀ k v, ((p.set i goal).set j cur).lookup k = some v →
          p.lookup k = some (Equiv.swap cur goal v) := by
        intro k v hk
        rw [hset, Option.map_eq_some_iff] at hk
        obtain ⟨u, hu, rfl⟩ := hk
        rw [hu, Equiv.swap_apply_self]
      obtain ⟨p', e', τ, k1, k0, k2, k3, k4, k5, k6⟩ := ih ((p.set i goal).set j cur) e1
        (done ++ [(i, goal)]) (by rw [set_fst, set_fst]; exact hn)
        (fun a b v ha hb => hi a b _ (hinv a v ha) (hinv b v hb))
        (fun k v hk => by
          have := hinv k v hk
          by_cases hv1 : v = cur
          · subst hv1; exact hlt _ _ hcur
          · by_cases hv2 : v = goal
            · subst hv2; exact hlt _ _ hj
            · rw [Equiv.swap_apply_of_ne_of_ne hv1 hv2] at this
              exact hlt _ _ this)
        s3 (by rw [← happ]; exact h1) (by rw [← happ]; exact h2)
        (fun x hx => by
          obtain ⟨m1, k, m2⟩ := h3 x (List.mem_cons_of_mem _ hx)
          refine ⟨by rw [hset, Option.isSome_map]; exact m1, ?_⟩
          by_cases hv1 : x.2 = cur
          · exact ⟨j, by rw [hset, hj, hv1]; simp⟩
          · by_cases hv2 : x.2 = goal
            · exact ⟨i, by rw [hset, hcur, hv2]; simp⟩
            · exact ⟨k, by rw [hset, m2, Option.map_some,
                Equiv.swap_apply_of_ne_of_ne hv1 hv2]⟩)
        (by
          intro x hx
          rcases List.mem_append.1 hx with hx | hx
          · rw [hset, h4 x hx, Option.map_some, Equiv.swap_apply_of_ne_of_ne]
            · intro hxc
              have : x.1 = i := hi _ _ _ (h4 x hx) (by rw [hcur, hxc])
              rw [List.map_append, List.map_cons, List.nodup_append] at h1
              exact h1.2.2 x.1 (List.mem_map_of_mem hx) i (by simp) this
            · intro hxg
              rw [List.map_append, List.map_cons, List.nodup_append] at h2
              exact h2.2.2 x.2 (List.mem_map_of_mem hx) goal (by simp) hxg
          · rw [List.mem_singleton] at hx; subst hx; rw [hset, hcur]; simp)
      refine ⟨p', e', τ * Equiv.swap cur goal, ?_, by
        rw [permAfter, if_neg (by rw [hcur]; simpa using hc), hkey, hcur, k0]; rfl, k2, hs.trans _ _ _ _ _ s4 k3, ?_, ?_,
        by rw [happ]; exact k6⟩
      · rw [changeLoop, hcur]
        simp only
        rw [if_neg hc, hkey, hj]
        simp only [s1, s2]
        exact k1
      · intro k
        rw [k4, hset]
        cases p.lookup k <;> rfl
      · intro v hv
        have hv1 : v ≠ cur := by rintro rfl; exact hv i hcur
        have hv2 : v ≠ goal := by rintro rfl; exact hv j hj
        rw [Equiv.Perm.mul_apply, Equiv.swap_apply_of_ne_of_ne hv1 hv2]
        apply k5
        intro k hk
        have := hinv k v hk
        rw [Equiv.swap_apply_of_ne_of_ne hv1 hv2] at this
        exact hv k this

/-- SWAPs on states. -/
theorem swapStep_vec (n : ℕ) : SwapStep n mvmul (VECan n)
    (fun σ e e' => ∀ z, e'.vec z = e.vec (z ∘ σ)) where
  refl e z := rfl
  trans σ τ e e' e'' h h' z := by rw [h', h]; rfl
  step a b ha hb hab e he := by
    obtain ⟨s, h1, h2, h3⟩ := swapDD_spec ha hb hab
    obtain ⟨r, h4, h5, h6⟩ := mvmul_spec h2.2 he.2
    exact ⟨s, r, h1, h4, h5, fun z => by rw [h6, h3]⟩

/-- SWAPs on matrices from the left. -/
theorem swapStep_left (n : ℕ) : SwapStep n mmul (MECan n)
    (fun σ e e' => ∀ x y, e'.mat n x y = e.mat n (x ∘ σ) y) where
  refl e x y := rfl
  trans σ τ e e' e'' h h' x y := by rw [h', h]; rfl
  step a b ha hb hab e he := by
    obtain ⟨s, h1, h2, h3⟩ := swapDD_spec ha hb hab
    obtain ⟨r, h4, h5, h6⟩ := mmul_spec h2.2 he.2
    refine ⟨s, r, h1, h4, h5, fun x y => ?_⟩
    rw [h6]
    exact h3 (fun z => e.mat n z y) x

/-- SWAPs on matrices from the right. -/
theorem swapStep_right (n : ℕ) : SwapStep n (fun s e => mmul e s) (MECan n)
    (fun σ e e' => ∀ x y, e'.mat n x y = e.mat n x (y ∘ σ)) where
  refl e x y := rfl
  trans σ τ e e' e'' h h' x y := by rw [h', h]; rfl
  step a b ha hb hab e he := by
    obtain ⟨s, h1, h2, h3⟩ := c41_two_qubit_matrix n swapMat [] a b List.Pairwise.nil (by simp)
      ha hb hab (by simp) (by simp)
    obtain ⟨s', h1', _, h3'⟩ := swapDD_spec ha hb hab
    rw [h1] at h1'
    obtain rfl := Option.some.inj h1'
    obtain ⟨r, h4, h5, h6⟩ := mmul_spec he.2 h2.2
    refine ⟨s, r, h1, h4, h5, fun x y => ?_⟩
    have hsym : ∀ u v : Bits, s.mat n u v = s.mat n v u := by
      intro u v
      rw [h3, h3]
      have ha : (∀ q < n, q ≠ a → q ≠ b → v q = u q) ↔ ∀ q < n, q ≠ a → q ≠ b → u q = v q :=
        forall₄_congr fun _ _ _ _ => eq_comm
      simp only [ha]
      cases u a <;> cases u b <;> cases v a <;> cases v b <;> simp [SatL, swapMat, mat2]
    have := h3' (fun z => e.mat n x z) y
    rw [h6, ← this]
    unfold matVec matMul
    have e1 : ∀ z, s.mat n y z * e.mat n x z = e.mat n x z * s.mat n z y := by
      intro z; rw [hsym, mul_comm]
    simp only [e1]
    apply sumB_base
    intro z z' hz
    rw [mat_congr e n (fun q _ => rfl) hz, mat_congr s n hz (fun q _ => rfl)]

/-! ### Layouts -/

/-- `p` is a layout with keys `D` and values `V`, extended by the bijection `σ`, which agrees with
`σ₀` away from the keys. -/
structure Lay (D V : ℕ → Prop) (σ₀ : Equiv.Perm ℕ) (p : Perm) (σ : Equiv.Perm ℕ) : Prop where
  nodup : (p.map Prod.fst).Nodup
  ext : ∀ k v, p.lookup k = some v → σ k = v
  dom : ∀ k, (∃ v, p.lookup k = some v) ↔ D k
  rng : ∀ v, (∃ k, p.lookup k = some v) ↔ V v
  off : ∀ k, ¬ D k → σ k = σ₀ k

theorem Lay.inj {D V : ℕ → Prop} {σ₀ σ : Equiv.Perm ℕ} {p : Perm} (h : Lay D V σ₀ p σ) : p.Inj :=
  fun a b v ha hb => σ.injective (by rw [h.ext a v ha, h.ext b v hb])

theorem Lay.unique {D V : ℕ → Prop} {σ₀ σ σ' : Equiv.Perm ℕ} {p : Perm} (h : Lay D V σ₀ p σ)
    (h' : Lay D V σ₀ p σ') : σ = σ' := by
  ext k
  by_cases hk : D k
  · obtain ⟨v, hv⟩ := (h.dom k).2 hk
    rw [h.ext k v hv, h'.ext k v hv]
  · rw [h.off k hk, h'.off k hk]

/-- Operations for which `getDD` builds the right diagram, on qubits with `D`. -/
structure StdGood (D : ℕ → Prop) (o : StdOp ℝ) : Prop where
  wf : o.WF
  den : ∃ f, o.denote = some f
  cov : ∀ q ∈ o.used, D q
  dis : Distinct o.controls
  gph : o.type = .gphase → o.controls = ∅

mutual
def Good (D : ℕ → Prop) : Op ℝ → Prop
  | .std o => StdGood D o
  | .compound ops _ => GoodL D ops
  | .measure _ _ => False
  | .reset _ => False
  | .classic _ _ => False
def GoodL (D : ℕ → Prop) : List (Op ℝ) → Prop
  | [] => True
  | op :: l => Good D op ∧ GoodL D l
end

mutual
theorem Good.ok {n : ℕ} {D V : ℕ → Prop} {σ₀ σ : Equiv.Perm ℕ} {p : Perm} (h : Lay D V σ₀ p σ)
    (hV : ∀ v, V v → v < n) (op : Op ℝ) (hg : Good D op) : OpOk n p σ op := by
  match op with
  | .std o =>
    rw [Good] at hg
    rw [OpOk]
    refine ⟨hg.wf, hg.den, fun q hq => ?_, hg.dis, hg.gph⟩
    obtain ⟨v, hv⟩ := (h.dom q).2 (hg.cov q hq)
    refine ⟨?_, by rw [h.ext q v hv]; exact hV v ((h.rng v).1 ⟨q, hv⟩)⟩
    unfold Perm.apply
    rw [if_neg (by rintro rfl; simp at hv), hv, h.ext q v hv]
  | .compound ops _ =>
    rw [Good] at hg
    rw [OpOk]
    exact GoodL.ok h hV ops hg
  | .measure _ _ => rw [Good] at hg; exact hg.elim
  | .reset _ => rw [Good] at hg; exact hg.elim
  | .classic _ _ => rw [Good] at hg; exact hg.elim
theorem GoodL.ok {n : ℕ} {D V : ℕ → Prop} {σ₀ σ : Equiv.Perm ℕ} {p : Perm} (h : Lay D V σ₀ p σ)
    (hV : ∀ v, V v → v < n) (l : List (Op ℝ)) (hg : GoodL D l) : OpsOk n p σ l := by
  match l with
  | [] => rw [OpsOk]; trivial
  | op :: l =>
    rw [GoodL] at hg
    rw [OpsOk]
    exact ⟨Good.ok h hV op hg.1, GoodL.ok h hV l hg.2⟩
end

theorem swap_mul_comm (σ : Equiv.Perm ℕ) (a b : ℕ) :
    σ * Equiv.swap a b = Equiv.swap (σ a) (σ b) * σ := by
  ext q
  simp only [Equiv.Perm.mul_apply]
  by_cases h1 : q = a
  · subst h1; simp
  · by_cases h2 : q = b
    · subst h2; simp
    · rw [Equiv.swap_apply_of_ne_of_ne h1 h2, Equiv.swap_apply_of_ne_of_ne]
      · exact fun h => h1 (σ.injective h)
      · exact fun h => h2 (σ.injective h)

/-- A virtual SWAP. -/
theorem Lay.swap {D V : ℕ → Prop} {σ₀ σ : Equiv.Perm ℕ} {p : Perm} (h : Lay D V σ₀ p σ) {a b : ℕ}
    (ha : D a) (hb : D b) :
    ∃ p', p.swap a b = some p' ∧ Lay D V σ₀ p' (σ * Equiv.swap a b) := by
  obtain ⟨u, hu⟩ := (h.dom a).2 ha
  obtain ⟨v, hv⟩ := (h.dom b).2 hb
  have hl := set_set_lookup h.inj hu hv
  have hs : σ * Equiv.swap a b = Equiv.swap u v * σ := by
    rw [swap_mul_comm, h.ext a u hu, h.ext b v hv]
  refine ⟨(p.set a v).set b u, by unfold Perm.swap; rw [hu, hv], ?_, ?_, ?_, ?_, ?_⟩
  · rw [set_fst, set_fst]; exact h.nodup
  · intro k w hk
    rw [hl, Option.map_eq_some_iff] at hk
    obtain ⟨w', hw', rfl⟩ := hk
    rw [hs, Equiv.Perm.mul_apply, h.ext k w' hw']
  · intro k
    rw [← h.dom k, hl]
    constructor
    · rintro ⟨w, hw⟩
      rw [Option.map_eq_some_iff] at hw
      obtain ⟨w', hw', _⟩ := hw
      exact ⟨w', hw'⟩
    · rintro ⟨w, hw⟩
      exact ⟨_, by rw [hw]; rfl⟩
  · intro w
    rw [← h.rng w]
    constructor
    · rintro ⟨k, hk⟩
      rw [hl, Option.map_eq_some_iff] at hk
      obtain ⟨w', hw', rfl⟩ := hk
      by_cases h1 : w' = u
      · subst h1; exact ⟨b, by rw [hv]; simp⟩
      · by_cases h2 : w' = v
        · subst h2; exact ⟨a, by rw [hu]; simp⟩
        · exact ⟨k, by rw [hw', Equiv.swap_apply_of_ne_of_ne h1 h2]⟩
    · rintro ⟨k, hk⟩
      by_cases h1 : w = u
      · subst h1; exact ⟨b, by rw [hl, hv]; simp⟩
      · by_cases h2 : w = v
        · subst h2; exact ⟨a, by rw [hl, hu]; simp⟩
        · exact ⟨k, by rw [hl, hk, Option.map_some, Equiv.swap_apply_of_ne_of_ne h1 h2]⟩
  · intro k hk
    rw [Equiv.Perm.mul_apply, Equiv.swap_apply_of_ne_of_ne, h.off k hk]
    · rintro rfl; exact hk ha
    · rintro rfl; exact hk hb

/-! ### Operations with virtual SWAPs -/

theorem isSwap_some {D : ℕ → Prop} {op : Op ℝ} (hg : Good D op) {ts : List ℕ}
    (h : isSwap op = some ts) : ∃ a b, ts = [a, b] ∧ D a ∧ D b ∧
      Acts op (fun ψ => ren (Equiv.swap a b) ψ) := by
  match op with
  | .std o =>
    rw [Good] at hg
    simp only [isSwap] at h
    split_ifs at h with h1
    obtain ⟨hty, hc⟩ := h1
    obtain rfl := Option.some.inj h
    have hts : ∃ a b, o.targets = [a, b] := by
      obtain ⟨f, hf⟩ := hg.den
      rcases StdOp.denote_cases hf with ⟨h, _⟩ | ⟨h, _⟩ | ⟨h, _⟩ | ⟨_, q0, q1, M, h, _⟩
      · rw [hty] at h; cases h
      · rw [hty] at h; cases h
      · rw [hty] at h; cases h
      · exact ⟨q0, q1, h⟩
    obtain ⟨a, b, hts⟩ := hts
    refine ⟨a, b, hts, hg.cov a ?_, hg.cov b ?_, ?_⟩
    · rw [StdOp.mem_used]; simp [hts]
    · rw [StdOp.mem_used]; simp [hts]
    · intro c
      rw [exec, swap_denote hty hc hts]
      simp only [Option.map_some]
      congr 2
      funext ψ x
      unfold ren pull
      rw [comp_swap]
  | .compound ops _ => simp [isSwap] at h
  | .measure _ _ => simp [isSwap] at h
  | .reset _ => simp [isSwap] at h
  | .classic _ _ => simp [isSwap] at h

/-- A diagram turning states in layout `σ` into states in layout `σ'`. -/
def Rep2 (n : ℕ) (σ σ' : Equiv.Perm ℕ) (e : MEdge) (f : State → State) : Prop :=
  MECan n e ∧ ∀ ψ z, matVec n (e.mat n) (ren σ ψ) z = ren σ' (f ψ) z

theorem Rep2.mul {n : ℕ} {σ σ' σ'' : Equiv.Perm ℕ} {e e' : MEdge} {f f' : State → State}
    (h : Rep2 n σ σ' e f) (h' : Rep2 n σ' σ'' e' f') :
    ∃ r, mmul e' e = some r ∧ Rep2 n σ σ'' r (fun ψ => f' (f ψ)) := by
  obtain ⟨r, h1, h2, h3⟩ := mmul_spec h'.1.2 h.1.2
  refine ⟨r, h1, h2, fun ψ z => ?_⟩
  have e1 : r.mat n = fun a b => matMul n (e'.mat n) (e.mat n) a b := by
    funext a b; rw [h3]
  rw [e1, matVec_matMul]
  have e2 : (fun y => matVec n (e.mat n) (ren σ ψ) y) = ren σ' (f ψ) := funext fun y => h.2 ψ y
  rw [e2, h'.2]

theorem rep2_one (n : ℕ) (σ : Equiv.Perm ℕ) (a b : ℕ) :
    Rep2 n σ (σ * Equiv.swap a b) .one (fun ψ => ren (Equiv.swap a b) ψ) := by
  have h := represents_term n σ (w := 1) one_ne_zero
  refine ⟨h.1, fun ψ z => ?_⟩
  have := h.2 ψ z
  rw [show (Edge.one : MEdge) = ⟨.term, 1⟩ from rfl, this]
  unfold ren phase
  rw [one_mul]
  congr 1
  funext q
  simp [Function.comp]

/-- The diagram of one operation in the functionality construction. -/
def stepDD (n : ℕ) (p : Perm) (op : Op ℝ) : Res (Perm × MEdge) :=
  match isSwap op with
  | some (a :: b :: _) =>
    match p.swap a b with
    | some p' => .ok (p', .one)
    | none => .throw
  | some _ => .ub
  | none => (getDD n p false op).bind fun m => .ok (p, m)

theorem stepDD_spec {n : ℕ} {D V : ℕ → Prop} {σ₀ σ : Equiv.Perm ℕ} {p : Perm}
    (h : Lay D V σ₀ p σ) (hV : ∀ v, V v → v < n) {op : Op ℝ} (hg : Good D op) :
    ∃ σ' e f, stepDD n p op = .ok (stepPerm p op, e) ∧ Acts op f ∧ Rep2 n σ σ' e f ∧
      Lay D V σ₀ (stepPerm p op) σ' := by
  unfold stepDD stepPerm
  cases hs : isSwap op with
  | none =>
    obtain ⟨e, f, h1, h2, h3⟩ := getDD_spec op (Good.ok h hV op hg)
    exact ⟨σ, e, f, by simp only [h1, Res.bind], h2, h3, h⟩
  | some ts =>
    obtain ⟨a, b, rfl, ha, hb, hf⟩ := isSwap_some hg hs
    obtain ⟨p', h1, h2⟩ := h.swap ha hb
    refine ⟨_, .one, _, by simp only [h1, Option.getD_some], hf, rep2_one n σ a b, ?_⟩
    simpa only [h1, Option.getD_some] using h2

/-- What a multiplication with a matrix diagram has to do to diagrams of kind `E`, a family of
column vectors. -/
def MulStep (n : ℕ) {E ι : Type} (mul : MEdge → E → Option E) (Ok : E → Prop)
    (col : E → ι → State) : Prop :=
  ∀ m e, MECan n m → Ok e → ∃ e', mul m e = some e' ∧ Ok e' ∧
    ∀ i z, col e' i z = matVec n (m.mat n) (col e i) z

theorem mulStep_vec (n : ℕ) :
    MulStep n mvmul (VECan n) (fun (e : VEdge) (_ : Unit) => e.vec) := by
  intro m e hm he
  obtain ⟨r, h4, h5, h6⟩ := mvmul_spec hm.2 he.2
  exact ⟨r, h4, h5, fun _ z => h6 z⟩

theorem mulStep_mat (n : ℕ) :
    MulStep n mmul (MECan n) (fun (e : MEdge) (y : Bits) x => e.mat n x y) := by
  intro m e hm he
  obtain ⟨r, h4, h5, h6⟩ := mmul_spec hm.2 he.2
  exact ⟨r, h4, h5, fun y x => h6 x y⟩

theorem simLoop_spec {n : ℕ} {D V : ℕ → Prop} {σ₀ : Equiv.Perm ℕ} (hV : ∀ v, V v → v < n)
    {E ι : Type} {mul : MEdge → E → Option E} {Ok : E → Prop} {col : E → ι → State}
    (hm : MulStep n mul Ok col) (ops : List (Op ℝ)) :
    ∀ (p : Perm) (σ : Equiv.Perm ℕ) (e : E) (ψ : ι → State), GoodL D ops → Lay D V σ₀ p σ → Ok e →
    (∀ i, col e i = ren σ (ψ i)) →
    ∃ σ' e' F, simLoop n mul ops p e = .ok (ops.foldl stepPerm p, e') ∧ ActsL ops F ∧
      Lay D V σ₀ (ops.foldl stepPerm p) σ' ∧ Ok e' ∧ ∀ i, col e' i = ren σ' (F (ψ i)) := by
  induction ops with
  | nil =>
    intro p σ e ψ _ hl hok hc
    exact ⟨σ, e, fun ψ => ψ, by rw [simLoop]; rfl, actsL_nil, hl, hok, hc⟩
  | cons op ops ih =>
    intro p σ e ψ hg hl hok hc
    rw [GoodL] at hg
    obtain ⟨hg1, hg2⟩ := hg
    rw [List.foldl_cons]
    cases hs : isSwap op with
    | none =>
      obtain ⟨m, f, h1, h2, h3⟩ := getDD_spec op (Good.ok hl hV op hg1)
      obtain ⟨e', h4, h5, h6⟩ := hm m e h3.1 hok
      have hp : stepPerm p op = p := by unfold stepPerm; rw [hs]
      obtain ⟨σ', e'', F, k1, k2, k3, k4, k5⟩ := ih p σ e' (fun i => f (ψ i)) hg2 hl h5 (by
        intro i
        funext z
        rw [h6, hc, h3.2])
      refine ⟨σ', e'', _, ?_, actsL_cons h2 k2, ?_, k4, k5⟩
      · rw [simLoop, hs, hp]
        simp only [h1, Res.bind, h4, k1]
      · rw [hp]; exact k3
    | some ts =>
      obtain ⟨a, b, rfl, ha, hb, hf⟩ := isSwap_some hg1 hs
      obtain ⟨p', h1, h2⟩ := hl.swap ha hb
      have hp : stepPerm p op = p' := by
        unfold stepPerm; rw [hs]; simp only [h1, Option.getD_some]
      obtain ⟨σ', e'', F, k1, k2, k3, k4, k5⟩ := ih p' _ e
        (fun i => ren (Equiv.swap a b) (ψ i)) hg2 h2 hok (by
          intro i
          funext z
          rw [hc]
          unfold ren
          congr 1
          funext q
          simp [Function.comp])
      refine ⟨σ', e'', _, ?_, actsL_cons hf k2, ?_, k4, k5⟩
      · rw [simLoop, hs, hp]
        simp only [h1, k1]
      · rw [hp]; exact k3

theorem permAfter_fst (tgt : List (ℕ × ℕ)) :
    ∀ p : Perm, (permAfter tgt p).map Prod.fst = p.map Prod.fst := by
  induction tgt with
  | nil => intro p; rw [permAfter]
  | cons x tgt ih =>
    intro p
    obtain ⟨i, goal⟩ := x
    rw [permAfter]
    split_ifs
    · exact ih p
    · rw [ih, set_fst, set_fst]

theorem polar_ne_zero (γ : ℝ) : (⟨Real.cos γ, Real.sin γ⟩ : ℂ) ≠ 0 := by
  intro h
  have h1 : Real.cos γ = 0 := congrArg Complex.re h
  have h2 : Real.sin γ = 0 := congrArg Complex.im h
  have := Real.sin_sq_add_cos_sq γ
  rw [h1, h2] at this
  norm_num at this

/-- `changePermutation` on a diagram in layout `p`; `out` fixes where (some of) the qubits have to
go. -/
theorem changePermutation_spec {n : ℕ} {D V : ℕ → Prop} {σ₀ : Equiv.Perm ℕ}
    (hV : ∀ v, V v → v < n) {E : Type} {mul : MEdge → E → Option E} {Ok : E → Prop}
    {R : Equiv.Perm ℕ → E → E → Prop} (hs : SwapStep n mul Ok R) {zero : E → Prop}
    (hz : ∀ e, zero e → ∀ τ, R τ e e) {p out : Perm} {σ : Equiv.Perm ℕ} {e : E}
    (hl : Lay D V σ₀ p σ) (ho1 : (out.map Prod.fst).Nodup) (ho2 : (out.map Prod.snd).Nodup)
    (ho3 : ∀ x ∈ out, D x.1 ∧ V x.2) (hok : Ok e) :
    ∃ p' e' τ, changePermutation n mul zero e p out = .ok (p', e') ∧ Ok e' ∧ R τ e e' ∧
      Lay D V σ₀ (permAfter out p) (τ * σ) ∧
      ∀ x ∈ out, (τ * σ) x.1 = x.2 := by
  obtain ⟨p', e', τ, k1, k0, k2, k3, k4, k5, k6⟩ := changeLoop_spec hs out p e [] hl.nodup hl.inj
    (fun k v hk => hV v ((hl.rng v).1 ⟨k, hk⟩)) hok (by simpa using ho1) (by simpa using ho2)
    (fun x hx => by
      obtain ⟨h1, h2⟩ := ho3 x hx
      obtain ⟨v, hv⟩ := (hl.dom _).2 h1
      exact ⟨by rw [hv]; rfl, (hl.rng _).2 h2⟩) (by simp)
  have hext : ∀ k v, p'.lookup k = some v → (τ * σ) k = v := by
    intro k v hk
    rw [k4, Option.map_eq_some_iff] at hk
    obtain ⟨w, hw, rfl⟩ := hk
    rw [Equiv.Perm.mul_apply, hl.ext k w hw]
  have hlay : Lay D V σ₀ (permAfter out p) (τ * σ) := by
    rw [← k0]
    refine ⟨?_, hext, ?_, ?_, ?_⟩
    · rw [k0, permAfter_fst]; exact hl.nodup
    · intro k
      rw [← hl.dom k, k4]
      constructor
      · rintro ⟨w, hw⟩
        rw [Option.map_eq_some_iff] at hw
        obtain ⟨w', hw', _⟩ := hw
        exact ⟨w', hw'⟩
      · rintro ⟨w, hw⟩
        exact ⟨_, by rw [hw]; rfl⟩
    · intro v
      rw [← hl.rng v]
      have hiff : ∀ v, (∃ k, p.lookup k = some v) → ∃ k, p.lookup k = some (τ v) := by
        intro v hv
        by_contra hno
        push Not at hno
        have := k5 _ hno
        rw [τ.injective this] at hno
        obtain ⟨k, hk⟩ := hv
        exact hno k hk
      have hiff' : ∀ v, (∃ k, p.lookup k = some (τ v)) → ∃ k, p.lookup k = some v := by
        intro v hv
        by_contra hno
        push Not at hno
        have := k5 _ hno
        rw [this] at hv
        obtain ⟨k, hk⟩ := hv
        exact hno k hk
      constructor
      · rintro ⟨k, hk⟩
        rw [k4, Option.map_eq_some_iff] at hk
        obtain ⟨w, hw, rfl⟩ := hk
        exact hiff w ⟨k, hw⟩
      · intro hv
        obtain ⟨w, rfl⟩ := τ.surjective v
        obtain ⟨k, hk⟩ := hiff' w hv
        exact ⟨k, by rw [k4, hk]; rfl⟩
    · intro k hk
      rw [Equiv.Perm.mul_apply, k5, hl.off k hk]
      intro k' hk'
      have := hl.ext _ _ hk'
      obtain rfl := σ.injective this
      exact hk ((hl.dom _).1 ⟨_, hk'⟩)
  have hgoal : ∀ x ∈ out, (τ * σ) x.1 = x.2 := fun x hx => hext _ _ (k6 x (by simpa using hx))
  unfold changePermutation
  by_cases h0 : zero e
  · rw [if_pos h0]
    exact ⟨p, e, τ, rfl, hok, hz e h0 τ, hlay, hgoal⟩
  · rw [if_neg h0]
    exact ⟨p', e', τ, k1, k2, k3, hlay, hgoal⟩

theorem simulate_spec {n : ℕ} {D V : ℕ → Prop} {σ : Equiv.Perm ℕ} (hV : ∀ v, V v → v < n)
    {ops : List (Op ℝ)} {init out : Perm} (γ : ℝ) {e : VEdge} (hg : GoodL D ops)
    (hl : Lay D V σ init σ) (ho1 : (out.map Prod.fst).Nodup) (ho2 : (out.map Prod.snd).Nodup)
    (ho3 : ∀ x ∈ out, D x.1 ∧ V x.2) (he : VECan n e) (ψ : State) (hψ : ∀ z, e.vec z = ren σ ψ z) :
    ∃ e' F τ, simulate n ops init out γ e = .ok e' ∧ VECan n e' ∧ ActsL ops F ∧
      (∀ x ∈ out, τ x.1 = x.2) ∧ (∀ k, ¬ D k → τ k = σ k) ∧ (∀ k, D k → V (τ k)) ∧
      ∀ z, e'.vec z = ⟨Real.cos γ, Real.sin γ⟩ * ren τ (F ψ) z := by
  obtain ⟨σ', e1, F, k1, k2, k3, k4, k5⟩ := simLoop_spec hV (mulStep_vec n) ops init σ e
    (fun _ => ψ) hg hl he (fun _ => funext hψ)
  obtain ⟨p', e2, τ, m1, m2, m3, m4, m5⟩ := changePermutation_spec (n := n) hV (swapStep_vec n)
    (zero := fun e : VEdge => e.p = .term ∧ e.w = 0)
    (fun e h0 τ z => by simp [Edge.vec, h0.2]) k3 ho1 ho2 ho3 k4
  have hval : ∀ z, e2.vec z = ren (τ * σ') (F ψ) z := by
    intro z
    rw [m3]
    exact congrFun (k5 ()) (z ∘ τ)
  have hD : ∀ k, D k → V ((τ * σ') k) := by
    intro k hk
    obtain ⟨v, hv⟩ := (m4.dom k).2 hk
    rw [m4.ext k v hv]
    exact (m4.rng v).1 ⟨k, hv⟩
  unfold simulate
  simp only [k1, Res.bind, m1]
  by_cases h0 : |γ| > 0
  · rw [if_pos h0]
    refine ⟨_, F, τ * σ', rfl, ?_, k2, m5, m4.off, hD, ?_⟩
    · refine ⟨fun h => m2.1 ?_, fun h => m2.2 (left_ne_zero_of_mul h)⟩
      exact (mul_eq_zero.1 h).resolve_right (polar_ne_zero γ)
    · intro z
      rw [← hval]
      simp only [Edge.vec]
      ring
  · rw [if_neg h0]
    have : γ = 0 := by
      by_contra h
      exact h0 (abs_pos.2 h)
    subst this
    refine ⟨_, F, τ * σ', rfl, m2, k2, m5, m4.off, hD, ?_⟩
    intro z
    rw [hval, Real.cos_zero, Real.sin_zero]
    have : (⟨1, 0⟩ : ℂ) = 1 := rfl
    rw [this, one_mul]

end MQT.Sim
