/-
Summing the entries of decision diagrams over garbage qubits.

Source in /repo: src/dd/Package.cpp 1173-1201 (`reduceGarbage` of vectors), 1202-1266 (`reduceGarbage` of matrices), 1340-1385
(`reduceGarbageRecursion` of vectors), 1386-1476 (`reduceGarbageRecursion` of matrices).

Simplifications: weights are exact; reference counting is left out; the sharing of results between successors with the same node
(`handled`) is transparent and left out.  The vector `garbage` being shorter than the highest level of the diagram is an
out-of-bounds access, and reading the level of a terminal a null pointer dereference (`none`).
-/
import Verif.DD.Ancilla
import Mathlib.Data.Finset.Powerset
import Mathlib.Algebra.BigOperators.Group.Finset.Powerset

set_option autoImplicit false

noncomputable section

open Classical
open Function (update)
open Complex (normSq)

namespace MQT.DD

open MQT.IR (Bits State)

/-! ### Model -/

/-- A weight, replaced by its magnitude if `normalizeWeights` is set. -/
def magW (nw : Bool) (z : ℂ) : ℂ := if nw then ((√(normSq z) : ℝ) : ℂ) else z

/-- `reduceGarbageRecursion` of vectors (Package.cpp 1340-1385). -/
def garV (gar : List Bool) (lb : ℕ) (nw : Bool) : VNode → Option VEdge
  | .term => none
  | .node v w c =>
    if nw = false ∧ v < lb then some ⟨.node v w c, 1⟩
    else
      (collect fun b => match c b with
        | .term => some ⟨.term, magW nw (w b)⟩
        | .node .. => (garV gar lb nw (c b)).map fun r => ⟨r.p, magW nw (r.w * w b)⟩).bind fun edges =>
      if isAnc gar v = true then
        (vaddMag v (edges false) (edges true)).map fun s => makeV v fun b => if b then .zero else s
      else some (makeV v edges)

/-- `reduceGarbage` of vectors (Package.cpp 1173-1201). -/
def reduceGarbageV (e : VEdge) (gar : List Bool) (nw : Bool) : Option VEdge :=
  if nw = false ∧ (gar.all (fun v => !v) = true ∨ e.p = .term) then some e
  else
    match e.p with
    | .term => none
    | .node v w c =>
      if nw = false ∧ v < firstAnc gar then some e
      else if gar.length ≤ v then none
      else (garV gar (firstAnc gar) nw (.node v w c)).map fun f => (⟨f.p, magW nw (e.w * f.w)⟩ : VEdge).lookup

/-- The successor with a given bit summed over and a given other bit. -/
def swp (reg a b : Bool) : RC := if reg then (a, b) else (b, a)

/-- The bit summed over: that of the row for regular, of the column for irregular reduction. -/
def summed (reg : Bool) (b : RC) : Bool := if reg then b.1 else b.2

/-- The loop over the levels `lo, …, lo + k - 1` that are skipped in the diagram: on each garbage level
`g = makeDDNode(j, {g, g, 0, 0})`, or `{g, 0, g, 0}`. -/
def padGar (gar : List Bool) (reg : Bool) (lo : ℕ) : ℕ → MEdge → MEdge
  | 0, g => g
  | k + 1, g =>
    if isAnc gar (lo + k) = true then
      makeM (lo + k) fun b => if summed reg b then .zero else padGar gar reg lo k g
    else padGar gar reg lo k g

/-- `reduceGarbageRecursion` of matrices (Package.cpp 1386-1476). -/
def garM (gar : List Bool) (lb : ℕ) (reg nw : Bool) : MNode → Option MEdge
  | .term => none
  | .node v w c =>
    if nw = false ∧ v < lb then some ⟨.node v w c, 1⟩
    else
      (collect fun b =>
        if c b = .term ∧ w b = 0 then some .zero
        else match c b with
          | .term =>
            let r := padGar gar reg lb (v - lb) .one
            some ⟨r.p, r.w * magW nw (w b)⟩
          | .node v' _ _ => (garM gar lb reg nw (c b)).map fun r0 =>
            let r := padGar gar reg (v' + 1) (v - (v' + 1)) r0
            ⟨r.p, magW nw (r.w * w b)⟩).bind fun edges =>
      if isAnc gar v = true then
        (collect fun β : Bool => maddMag v (edges (swp reg false β)) (edges (swp reg true β))).map fun s =>
          makeM v fun b => if summed reg b then .zero else s (if reg then b.2 else b.1)
      else some (makeM v edges)

/-- `reduceGarbage` of matrices (Package.cpp 1202-1266). -/
def reduceGarbageM (e : MEdge) (gar : List Bool) (reg nw : Bool) : Option MEdge :=
  if nw = false ∧ (gar.all (fun v => !v) = true ∨ (e.p = .term ∧ e.w = 0)) then some e
  else
    match e.p with
    | .term => if e.w = 0 then none else some (padGar gar reg 0 gar.length e)
    | .node v w c =>
      if (firstAnc gar ≤ v ∨ nw = true) ∧ gar.length ≤ v then none
      else
        (if firstAnc gar ≤ v ∨ nw = true then garM gar (firstAnc gar) reg nw (.node v w c)
          else some ⟨.node v w c, 1⟩).map fun g0 =>
        let g := padGar gar reg (v + 1) (gar.length - (v + 1)) g0
        (⟨g.p, magW nw (g.w * e.w)⟩ : MEdge).lookup

/-! ### Specification -/

/-- The garbage qubits below `n`. -/
def gset (gar : List Bool) (n : ℕ) : Finset ℕ := (Finset.range n).filter fun q => isAnc gar q = true

/-- The sum of `f` over all values of the bits in `G`. -/
def margin (G : Finset ℕ) (f : Bits → ℝ) (x : Bits) : ℝ :=
  ∑ s ∈ G.powerset, f fun q => if q ∈ G then decide (q ∈ s) else x q

/-- `R` arises from `M` by adding up squared magnitudes over the garbage qubits below `n`, the sums being found where these are
0. -/
def Red (gar : List Bool) (n : ℕ) (R M : Bits → ℂ) : Prop :=
  ∀ a, normSq (R a) = if ∀ q ∈ gset gar n, a q = false then margin (gset gar n) (fun z => normSq (M z)) a else 0

theorem margin_empty (f : Bits → ℝ) (x : Bits) : margin ∅ f x = f x := by simp [margin]

theorem margin_insert {G : Finset ℕ} {v : ℕ} (hv : v ∉ G) (f : Bits → ℝ) (x : Bits) :
    margin (insert v G) f x = margin G f (update x v false) + margin G f (update x v true) := by
  unfold margin
  rw [Finset.sum_powerset_insert hv]
  congr 1
  · refine Finset.sum_congr rfl fun s hs => congrArg f (funext fun q => ?_)
    have hs := Finset.mem_powerset.1 hs
    by_cases hq : q = v
    · subst hq
      simp only [hv, if_false, Function.update_self, Finset.mem_insert, true_or, if_true, decide_eq_false_iff_not]
      exact fun h => hv (hs h)
    · simp [hq]
  · refine Finset.sum_congr rfl fun s hs => congrArg f (funext fun q => ?_)
    by_cases hq : q = v
    · subst hq
      simp [hv]
    · simp [hq]

theorem margin_congr {G : Finset ℕ} {f g : Bits → ℝ} {x y : Bits}
    (h : ∀ z z' : Bits, (∀ q ∈ G, z q = z' q) → (∀ q ∉ G, z q = x q ∧ z' q = y q) → f z = g z') :
    margin G f x = margin G g y := by
  unfold margin
  refine Finset.sum_congr rfl fun s _ => h _ _ (fun q hq => by simp [hq]) fun q hq => by simp [hq]

theorem margin_zero (G : Finset ℕ) (x : Bits) : margin G (fun _ => 0) x = 0 := by simp [margin]

theorem gset_succ_of {gar : List Bool} {n : ℕ} (h : isAnc gar n = true) : gset gar (n + 1) = insert n (gset gar n) := by
  unfold gset
  rw [Finset.range_add_one, Finset.filter_insert, if_pos h]

theorem gset_succ_not {gar : List Bool} {n : ℕ} (h : ¬ isAnc gar n = true) : gset gar (n + 1) = gset gar n := by
  unfold gset
  rw [Finset.range_add_one, Finset.filter_insert, if_neg h]

theorem not_mem_gset {gar : List Bool} {n q : ℕ} (h : n ≤ q) : q ∉ gset gar n := by
  unfold gset
  simp only [Finset.mem_filter, Finset.mem_range]
  omega

theorem gset_none {gar : List Bool} {n : ℕ} (h : ∀ q < n, isAnc gar q = false) : gset gar n = ∅ := by
  unfold gset
  rw [Finset.filter_eq_empty_iff]
  intro q hq
  simp [h q (Finset.mem_range.1 hq)]

theorem Red.refl_of {gar : List Bool} {n : ℕ} (h : ∀ q < n, isAnc gar q = false) {R M : Bits → ℂ}
    (hm : ∀ a, normSq (R a) = normSq (M a)) : Red gar n R M := by
  intro a
  rw [gset_none h, margin_empty, hm]
  simp

theorem Red.smul {gar : List Bool} {n : ℕ} {R M R' M' : Bits → ℂ} (h : Red gar n R M) {k : ℝ}
    (hR : ∀ a, normSq (R' a) = k * normSq (R a)) (hM : ∀ a, normSq (M' a) = k * normSq (M a)) : Red gar n R' M' := by
  intro a
  rw [hR, h a]
  split_ifs
  · simp only [margin, hM, Finset.mul_sum]
  · simp

theorem Red.zero (gar : List Bool) (n : ℕ) {R M : Bits → ℂ} (hR : ∀ a, R a = 0) (hM : ∀ a, M a = 0) : Red gar n R M := by
  intro a
  simp [hR, hM, margin]

/-- A level of a qubit that is not garbage. -/
theorem Red.keep {gar : List Bool} {n : ℕ} (hn : ¬ isAnc gar n = true) {R M : Bool → Bits → ℂ} {R' M' : Bits → ℂ}
    (h : ∀ β, Red gar n (R β) (M β)) (hR : ∀ a, R' a = R (a n) a) (hM : ∀ a, M' a = M (a n) a) : Red gar (n + 1) R' M' := by
  intro a
  rw [gset_succ_not hn, hR, h (a n) a]
  congr 1
  refine margin_congr fun z z' h1 h2 => ?_
  have e : z = z' := funext fun q => by
    by_cases hq : q ∈ gset gar n
    · exact h1 q hq
    · rw [(h2 q hq).1, (h2 q hq).2]
  rw [hM z', e, (h2 n (not_mem_gset le_rfl)).2]

/-- A level of a garbage qubit. -/
theorem Red.sum {gar : List Bool} {n : ℕ} (hn : isAnc gar n = true) {R M : Bool → Bits → ℂ} {R' M' S : Bits → ℂ}
    (h : ∀ β, Red gar n (R β) (M β)) (hi : ∀ β (a a' : Bits), (∀ q < n, a q = a' q) → M β a = M β a')
    (hS : ∀ a, normSq (S a) = normSq (R false a) + normSq (R true a))
    (hR : ∀ a, R' a = if a n then 0 else S a) (hM : ∀ a, M' a = M (a n) a) : Red gar (n + 1) R' M' := by
  intro a
  rw [gset_succ_of hn, hR, margin_insert (not_mem_gset le_rfl)]
  have key : ∀ β, margin (gset gar n) (fun z => normSq (M' z)) (update a n β) = margin (gset gar n) (fun z => normSq (M β z)) a := by
    intro β
    refine margin_congr fun z z' h1 h2 => ?_
    have e1 : z n = β := by rw [(h2 n (not_mem_gset le_rfl)).1]; simp
    rw [hM, e1, hi β z z' fun q hq => ?_]
    by_cases hg : q ∈ gset gar n
    · exact h1 q hg
    · rw [(h2 q hg).1, (h2 q hg).2]
      simp [show q ≠ n by omega]
  rw [key, key]
  simp only [Finset.mem_insert, forall_eq_or_imp]
  cases ha : a n
  · simp only [Bool.false_eq_true, if_false, true_and, hS, h false a, h true a]
    split_ifs <;> simp
  · simp

/-! ### Vectors -/

theorem normSq_magW (nw : Bool) (z : ℂ) : normSq (magW nw z) = normSq z := by
  unfold magW
  split_ifs
  · exact normSq_sqrt (Complex.normSq_nonneg z)
  · rfl

theorem magW_ne {nw : Bool} {z : ℂ} (h : magW nw z ≠ 0) : z ≠ 0 := by
  rintro rfl
  apply h
  unfold magW
  split_ifs <;> simp

theorem garV_spec (gar : List Bool) (lb : ℕ) (nw : Bool) (hlb : ∀ q < lb, isAnc gar q = false) (p : VNode) :
    ∀ v w c, p = .node v w c → VCan (v + 1) p →
      ∃ r, garV gar lb nw p = some r ∧ VOk (v + 1) r ∧ Red gar (v + 1) r.vec (vval p) := by
  induction p with
  | term => intro v w c h; cases h
  | node v w c ih =>
    intro v' w' c' hp hm
    cases hp
    obtain ⟨-, h2, h3⟩ := hm
    have hself : VCan (v + 1) (.node v w c : VNode) := ⟨rfl, h2, h3⟩
    rw [garV]
    by_cases hv : nw = false ∧ v < lb
    · rw [if_pos hv]
      exact ⟨_, rfl, fun _ => hself, Red.refl_of (fun q hq => hlb q (by omega)) fun a => by simp [Edge.vec]⟩
    · rw [if_neg hv]
      have hedges : ∀ b, ∃ r, (match c b with
          | .term => some ⟨.term, magW nw (w b)⟩
          | .node .. => (garV gar lb nw (c b)).map fun r => ⟨r.p, magW nw (r.w * w b)⟩ : Option VEdge) = some r ∧ VOk v r ∧
          Red gar v r.vec fun a => w b * vval (c b) a := by
        intro b
        obtain ⟨k1, k2⟩ := h3 b
        cases hcb : c b with
        | term =>
          refine ⟨_, rfl, fun h => ?_, ?_⟩
          · have := k2 (magW_ne h)
            rw [hcb] at this
            exact this
          · by_cases h0 : w b = 0
            · exact Red.zero _ _ (fun a => by simp [Edge.vec, h0, magW]) fun a => by simp [h0]
            · have := k2 h0
              rw [hcb] at this
              obtain rfl : v = 0 := this
              exact Red.refl_of (fun q hq => by omega) fun a => by simp [Edge.vec, vval, normSq_magW]
        | node v' w' c' =>
          have h0 : w b ≠ 0 := fun h => by rw [k1 h] at hcb; cases hcb
          have hc := k2 h0
          have hvv : v = v' + 1 := by rw [hcb] at hc; exact hc.1
          subst hvv
          obtain ⟨r, r1, r2, r3⟩ := ih b v' w' c' hcb hc
          refine ⟨⟨r.p, magW nw (r.w * w b)⟩, by simp only [hcb] at r1 ⊢; rw [r1]; rfl, fun h => r2 (left_ne_zero_of_mul (magW_ne h)), ?_⟩
          refine r3.smul (k := normSq (w b)) (fun a => ?_) fun a => ?_
          · simp only [Edge.vec, map_mul, normSq_magW]; ring
          · simp only [map_mul, hcb]
      choose edges he using hedges
      rw [collect_some fun b => (he b).1]
      simp only [Option.bind_some]
      by_cases hg : isAnc gar v = true
      · rw [if_pos hg]
        obtain ⟨s, s1, s2, s3⟩ := recV_spec magPre_goodV v (edges false) (edges true) (he false).2.1 (he true).2.1
        rw [vaddMag, s1]
        have hok : ∀ b : Bool, VOk v (if b then .zero else s) := by
          intro b
          cases b
          · exact s2
          · exact VOk.zero _
        refine ⟨_, rfl, (makeV_can hok).2, ?_⟩
        refine Red.sum hg (R := fun β => (edges β).vec) (M := fun β a => w β * vval (c β) a) (S := s.vec) (fun β => (he β).2.2)
          (fun β a a' h => ?_) s3 (fun a => ?_) fun a => rfl
        · by_cases h0 : w β = 0
          · simp [h0]
          · simp only [vval_congr ((h3 β).2 h0) h]
        · rw [makeV_vec]
          split_ifs <;> simp
      · rw [if_neg hg]
        refine ⟨_, rfl, (makeV_can fun b => (he b).2.1).2, ?_⟩
        exact Red.keep hg (R := fun β => (edges β).vec) (M := fun β a => w β * vval (c β) a) (fun β => (he β).2.2)
          (fun a => makeV_vec _ _ _) fun a => rfl

theorem isAnc_none {gar : List Bool} (h : gar.all (fun v => !v) = true) (q : ℕ) : isAnc gar q = false := by
  rw [List.all_eq_true] at h
  unfold isAnc
  by_cases hq : q < gar.length
  · rw [List.getD_eq_getElem _ _ hq]
    simpa using h _ (List.getElem_mem hq)
  · rw [List.getD_eq_default _ _ (by omega)]

/-- `reduceGarbage` of vectors adds up the squared magnitudes.  With `normalizeWeights` the terminal is excluded. -/
theorem reduceGarbageV_spec {n : ℕ} {e : VEdge} (he : VECan n e) {gar : List Bool} (hn : gar.length = n) (nw : Bool)
    (hnw : nw = true → e.p ≠ .term) :
    ∃ r, reduceGarbageV e gar nw = some r ∧ VECan n r ∧ Red gar n r.vec e.vec := by
  unfold reduceGarbageV
  by_cases h0 : nw = false ∧ (gar.all (fun v => !v) = true ∨ e.p = .term)
  · rw [if_pos h0]
    refine ⟨e, rfl, he, ?_⟩
    rcases h0.2 with h | h
    · exact Red.refl_of (fun q _ => isAnc_none h q) fun _ => rfl
    · by_cases hw : e.w = 0
      · exact Red.zero _ _ (fun a => by simp [Edge.vec, hw]) fun a => by simp [Edge.vec, hw]
      · have := he.2 hw
        rw [h] at this
        obtain rfl : n = 0 := this
        exact Red.refl_of (fun q hq => by omega) fun _ => rfl
  · rw [if_neg h0]
    cases hp : e.p with
    | term =>
      cases nw with
      | true => exact absurd hp (hnw rfl)
      | false => exact absurd ⟨rfl, .inr hp⟩ h0
    | node v w c =>
      simp only
      have hw : e.w ≠ 0 := fun h => by rw [he.1 h] at hp; cases hp
      have hc := he.2 hw
      rw [hp] at hc
      obtain rfl : n = v + 1 := hc.1
      by_cases hv : nw = false ∧ v < firstAnc gar
      · rw [if_pos hv]
        exact ⟨e, rfl, he, Red.refl_of (fun q hq => isAnc_lt_first (by omega)) fun _ => rfl⟩
      · rw [if_neg hv, if_neg (by omega)]
        obtain ⟨r, r1, r2, r3⟩ := garV_spec gar (firstAnc gar) nw (fun q hq => isAnc_lt_first hq) _ v w c rfl hc
        rw [r1]
        refine ⟨_, rfl, VOk.lookup fun h => r2 (right_ne_zero_of_mul (magW_ne h)), ?_⟩
        refine r3.smul (k := normSq e.w) (fun a => ?_) fun a => ?_
        · rw [lookup_vec]; simp only [Edge.vec, map_mul, normSq_magW]; ring
        · rw [Edge.vec, hp, map_mul]

/-! ### Matrices -/

/-- An entry, the index summed over first. -/
def matS (reg : Bool) (e : MEdge) (n : ℕ) (b a : Bits) : ℂ := if reg then e.mat n a b else e.mat n b a

theorem matS_make {n : ℕ} {e : RC → MEdge} (h : ∀ b, MOk n (e b)) (reg : Bool) (a b : Bits) :
    matS reg (makeM n e) (n + 1) b a = matS reg (e (swp reg (a n) (b n))) n b a := by
  unfold matS swp
  split_ifs <;> rw [makeM_mat h]

theorem matS_congr (reg : Bool) (e : MEdge) (n : ℕ) (b : Bits) {a a' : Bits} (h : ∀ q < n, a q = a' q) :
    matS reg e n b a = matS reg e n b a' := by
  unfold matS Edge.mat
  split_ifs
  · rw [mval_congr n e.p h fun _ _ => rfl]
  · rw [mval_congr n e.p (fun _ _ => rfl) h]

theorem matS_skip {n m : ℕ} {e : MEdge} (h : MOk n e) (hm : n ≤ m) (reg : Bool) (a b : Bits) :
    matS reg e (m + 1) b a = if a m = b m then matS reg e m b a else 0 := by
  have key : ∀ x y : Bits, e.mat (m + 1) x y = if x m = y m then e.mat m x y else 0 := by
    intro x y
    by_cases h0 : e.w = 0
    · simp [Edge.mat, h0]
    · unfold Edge.mat
      rw [mval_skip (h h0) hm]
      split_ifs <;> simp
  unfold matS
  split_ifs with h1 h2 h2
  · rw [key, if_pos h2]
  · rw [key, if_neg h2]
  · rw [key, if_pos h2.symm]
  · rw [key, if_neg fun h => h2 h.symm]

theorem matS_zero (reg : Bool) (n : ℕ) (b a : Bits) : matS reg (.zero : MEdge) n b a = 0 := by
  unfold matS
  split_ifs <;> simp

theorem summed_swp (reg a b : Bool) : summed reg (swp reg a b) = a := by cases reg <;> rfl

theorem padGar_spec (gar : List Bool) (reg : Bool) (lo : ℕ) {g e : MEdge} (hg : MOk lo g) (he : MOk lo e)
    (h : ∀ b, Red gar lo (matS reg g lo b) (matS reg e lo b)) (k : ℕ) :
    MOk (lo + k) (padGar gar reg lo k g) ∧ ∀ b, Red gar (lo + k) (matS reg (padGar gar reg lo k g) (lo + k) b) (matS reg e (lo + k) b) := by
  induction k with
  | zero => exact ⟨hg, h⟩
  | succ k ih =>
    obtain ⟨ih1, ih2⟩ := ih
    rw [padGar]
    by_cases ha : isAnc gar (lo + k) = true
    · rw [if_pos ha]
      have hok : ∀ b : RC, MOk (lo + k) (if summed reg b then .zero else padGar gar reg lo k g) := by
        intro b
        split_ifs
        · exact MOk.zero _
        · exact ih1
      refine ⟨(makeM_can hok).2, fun b => ?_⟩
      refine Red.sum (n := lo + k) ha
        (R := fun β a => if β = b (lo + k) then matS reg (padGar gar reg lo k g) (lo + k) b a else 0)
        (M := fun β a => if β = b (lo + k) then matS reg e (lo + k) b a else 0)
        (S := matS reg (padGar gar reg lo k g) (lo + k) b) ?_ ?_ ?_ ?_ ?_
      · intro β
        split_ifs
        · exact ih2 b
        · exact Red.zero _ _ (fun _ => rfl) fun _ => rfl
      · intro β a a' hh
        split_ifs
        · exact matS_congr reg e _ b hh
        · rfl
      · intro a
        cases b (lo + k) <;> simp
      · intro a
        rw [← add_assoc, matS_make hok, summed_swp]
        split_ifs
        · exact matS_zero _ _ _ _
        · rfl
      · intro a
        exact matS_skip he (Nat.le_add_right lo k) reg a b
    · rw [if_neg ha]
      refine ⟨ih1.up (by omega), fun b => ?_⟩
      refine Red.keep (n := lo + k) ha
        (R := fun β a => if β = b (lo + k) then matS reg (padGar gar reg lo k g) (lo + k) b a else 0)
        (M := fun β a => if β = b (lo + k) then matS reg e (lo + k) b a else 0) ?_ ?_ ?_
      · intro β
        split_ifs
        · exact ih2 b
        · exact Red.zero _ _ (fun _ => rfl) fun _ => rfl
      · intro a
        exact matS_skip ih1 le_rfl reg a b
      · intro a
        exact matS_skip he (Nat.le_add_right lo k) reg a b

/-- Scaling both edges. -/
theorem matS_smul {gar : List Bool} {reg : Bool} {n : ℕ} {g e : MEdge} (h : ∀ b, Red gar n (matS reg g n b) (matS reg e n b))
    (z : ℂ) {w w' : ℂ} (hw : normSq w = normSq g.w * normSq z) (hw' : normSq w' = normSq e.w * normSq z) (b : Bits) :
    Red gar n (matS reg ⟨g.p, w⟩ n b) (matS reg ⟨e.p, w'⟩ n b) := by
  refine (h b).smul (k := normSq z) (fun a => ?_) fun a => ?_
  · unfold matS Edge.mat
    split_ifs <;> (simp only [map_mul, hw]; ring)
  · unfold matS Edge.mat
    split_ifs <;> (simp only [map_mul, hw']; ring)

theorem Red.self_one (gar : List Bool) (reg : Bool) {lb : ℕ} (hlb : ∀ q < lb, isAnc gar q = false) (e : MEdge) (b : Bits) :
    Red gar lb (matS reg e lb b) (matS reg e lb b) := Red.refl_of hlb fun _ => rfl

theorem matS_node {v : ℕ} {w : RC → ℂ} {c : RC → MNode} (reg : Bool) (a b : Bits) :
    matS reg ⟨.node v w c, 1⟩ (v + 1) b a =
      matS reg ⟨c (swp reg (a v) (b v)), w (swp reg (a v) (b v))⟩ v b a := by
  unfold matS swp
  split_ifs <;> simp [mat_succ, expand]

theorem garM_spec (gar : List Bool) (lb : ℕ) (reg nw : Bool) (hlb : ∀ q < lb, isAnc gar q = false) (p : MNode) :
    ∀ v w c, p = .node v w c → MCan (v + 1) p →
      ∃ r, garM gar lb reg nw p = some r ∧ MOk (v + 1) r ∧ ∀ b, Red gar (v + 1) (matS reg r (v + 1) b) (matS reg ⟨p, 1⟩ (v + 1) b) := by
  induction p with
  | term => intro v w c h; cases h
  | node v w c ih =>
    intro v' w' c' hp hm
    cases hp
    obtain ⟨h1, h2, h3, h4⟩ := hm
    have hself : MCan (v + 1) (.node v w c : MNode) := ⟨h1, h2, h3, h4⟩
    rw [garM]
    by_cases hv : nw = false ∧ v < lb
    · rw [if_pos hv]
      exact ⟨_, rfl, fun _ => hself, fun b => Red.refl_of (fun q hq => hlb q (by omega)) fun _ => rfl⟩
    · rw [if_neg hv]
      have hedges : ∀ b, ∃ r, (if c b = .term ∧ w b = 0 then some .zero
        else match c b with
          | .term => some ⟨(padGar gar reg lb (v - lb) .one).p, (padGar gar reg lb (v - lb) .one).w * magW nw (w b)⟩
          | .node v' _ _ => (garM gar lb reg nw (c b)).map fun r0 =>
            ⟨(padGar gar reg (v' + 1) (v - (v' + 1)) r0).p, magW nw ((padGar gar reg (v' + 1) (v - (v' + 1)) r0).w * w b)⟩
          : Option MEdge) = some r ∧ MOk v r ∧
          ∀ d, Red gar v (matS reg r v d) (matS reg ⟨c b, w b⟩ v d) := by
        intro b
        obtain ⟨k1, k2⟩ := h4 b
        by_cases h0 : w b = 0
        · rw [if_pos ⟨k1 h0, h0⟩]
          refine ⟨_, rfl, MOk.zero _, fun d => Red.zero _ _ (fun a => matS_zero _ _ _ _) fun a => ?_⟩
          unfold matS Edge.mat
          split_ifs <;> simp [h0]
        · rw [if_neg fun h => h0 h.2]
          have hc := k2 h0
          cases hcb : c b with
          | term =>
            simp only
            refine ⟨_, rfl, ?_⟩
            have hpad : MOk v (padGar gar reg lb (v - lb) .one) ∧
                ∀ d, Red gar v (matS reg (padGar gar reg lb (v - lb) .one) v d) (matS reg .one v d) := by
              by_cases hvl : lb ≤ v
              · have := padGar_spec gar reg lb (one_mecan lb).2 (one_mecan lb).2 (Red.self_one gar reg hlb .one) (v - lb)
                rwa [show lb + (v - lb) = v by omega] at this
              · rw [show v - lb = 0 by omega, padGar]
                exact ⟨(one_mecan v).2, fun d => Red.refl_of (fun q hq => hlb q (by omega)) fun _ => rfl⟩
            refine ⟨fun h => hpad.1 (left_ne_zero_of_mul h), matS_smul hpad.2 (w b) ?_ ?_⟩
            · rw [map_mul, normSq_magW]
            · simp
          | node v' w' c' =>
            rw [hcb] at hc
            have hlt : v' < v := hc.1
            have hc' : MCan (v' + 1) (.node v' w' c' : MNode) := ⟨by omega, hc.2⟩
            obtain ⟨r, r1, r2, r3⟩ := ih b v' w' c' hcb (by rw [hcb]; exact hc')
            rw [hcb] at r1 r3
            simp only [r1, Option.map_some]
            refine ⟨_, rfl, ?_⟩
            have hpad := padGar_spec gar reg (v' + 1) r2 (fun _ => hc' : MOk (v' + 1) ⟨.node v' w' c', 1⟩) r3 (v - (v' + 1))
            rw [show v' + 1 + (v - (v' + 1)) = v by omega] at hpad
            refine ⟨fun h => hpad.1 (left_ne_zero_of_mul (magW_ne h)), matS_smul hpad.2 (w b) ?_ ?_⟩
            · rw [normSq_magW, map_mul]
            · simp
      choose edges he using hedges
      simp only
      rw [collect_some fun b => (he b).1]
      simp only [Option.bind_some]
      by_cases hg : isAnc gar v = true
      · rw [if_pos hg]
        have hs : ∀ β : Bool, ∃ s, maddMag v (edges (swp reg false β)) (edges (swp reg true β)) = some s ∧ MOk v s ∧
            ∀ d a, normSq (matS reg s v d a) =
              normSq (matS reg (edges (swp reg false β)) v d a) + normSq (matS reg (edges (swp reg true β)) v d a) := by
          intro β
          obtain ⟨s, s1, s2, s3⟩ := recM_spec magPre_goodM v _ _ (he (swp reg false β)).2.1 (he (swp reg true β)).2.1
          refine ⟨s, s1, s2, fun d a => ?_⟩
          unfold matS
          split_ifs <;> exact s3 _ _
        choose s hs using hs
        rw [collect_some fun β => (hs β).1]
        have hok : ∀ b : RC, MOk v (if summed reg b then .zero else s (if reg then b.2 else b.1)) := by
          intro b
          split_ifs
          · exact MOk.zero _
          · exact (hs _).2.1
          · exact (hs _).2.1
        refine ⟨_, rfl, (makeM_can hok).2, fun d => ?_⟩
        refine Red.sum hg (R := fun β => matS reg (edges (swp reg β (d v))) v d)
          (M := fun β => matS reg ⟨c (swp reg β (d v)), w (swp reg β (d v))⟩ v d)
          (S := matS reg (s (d v)) v d) (fun β => (he _).2.2 d) (fun β a a' h => matS_congr reg _ _ d h)
          ((hs (d v)).2.2 d) (fun a => ?_) fun a => matS_node reg a d
        rw [matS_make hok, summed_swp]
        cases reg <;> (simp only [swp]; split_ifs <;> first | rfl | exact matS_zero _ _ _ _)
      · rw [if_neg hg]
        refine ⟨_, rfl, (makeM_can fun b => (he b).2.1).2, fun d => ?_⟩
        exact Red.keep hg (R := fun β => matS reg (edges (swp reg β (d v))) v d)
          (M := fun β => matS reg ⟨c (swp reg β (d v)), w (swp reg β (d v))⟩ v d) (fun β => (he _).2.2 d)
          (fun a => matS_make (fun b => (he b).2.1) reg a d) fun a => matS_node reg a d

theorem padGar_can (gar : List Bool) (reg : Bool) (lo : ℕ) {g : MEdge} (hg : MECan lo g) (k : ℕ) :
    MECan (lo + k) (padGar gar reg lo k g) := by
  induction k with
  | zero => exact hg
  | succ k ih =>
    rw [padGar]
    split_ifs with ha
    · refine makeM_can fun b => ?_
      split_ifs
      · exact MOk.zero _
      · exact ih.2
    · exact ih.up (by omega)

/-- `reduceGarbage` of matrices adds up the squared magnitudes.  With `normalizeWeights` the zero matrix is excluded. -/
theorem reduceGarbageM_spec {n : ℕ} {e : MEdge} (he : MECan n e) {gar : List Bool} (hn : gar.length = n) (reg nw : Bool)
    (hnw : nw = true → e.w ≠ 0) :
    ∃ r, reduceGarbageM e gar reg nw = some r ∧ MECan n r ∧ ∀ b, Red gar n (matS reg r n b) (matS reg e n b) := by
  unfold reduceGarbageM
  by_cases h0 : nw = false ∧ (gar.all (fun v => !v) = true ∨ (e.p = .term ∧ e.w = 0))
  · rw [if_pos h0]
    refine ⟨e, rfl, he, fun b => ?_⟩
    rcases h0.2 with h | h
    · exact Red.refl_of (fun q _ => isAnc_none h q) fun _ => rfl
    · have hz : ∀ a, matS reg e n b a = 0 := fun a => by
        unfold matS Edge.mat
        split_ifs <;> simp [h.2]
      exact Red.zero _ _ hz hz
  · rw [if_neg h0]
    cases hp : e.p with
    | term =>
      simp only
      have hw : e.w ≠ 0 := by
        intro h
        cases nw with
        | true => exact hnw rfl h
        | false => exact h0 ⟨rfl, .inr ⟨hp, h⟩⟩
      rw [if_neg hw]
      have he0 : MECan 0 e := ⟨he.1, fun _ => by rw [hp]; trivial⟩
      obtain ⟨_, s2⟩ := padGar_spec gar reg 0 he0.2 he0.2 (fun b => Red.refl_of (fun q hq => by omega) fun _ => rfl) gar.length
      have s1 := padGar_can gar reg 0 he0 gar.length
      rw [zero_add, hn] at s1 s2
      rw [hn]
      exact ⟨_, rfl, s1, s2⟩
    | node v w c =>
      simp only
      have hw : e.w ≠ 0 := fun h => by rw [he.1 h] at hp; cases hp
      have hc := he.2 hw
      rw [hp] at hc
      have hvn : v < n := hc.1
      have hself : MCan (v + 1) (.node v w c : MNode) := ⟨by omega, hc.2⟩
      rw [if_neg (by omega)]
      have hg : ∃ g, (if firstAnc gar ≤ v ∨ nw = true then garM gar (firstAnc gar) reg nw (.node v w c)
          else some ⟨.node v w c, 1⟩) = some g ∧ MOk (v + 1) g ∧
          ∀ b, Red gar (v + 1) (matS reg g (v + 1) b) (matS reg ⟨.node v w c, 1⟩ (v + 1) b) := by
        by_cases hf : firstAnc gar ≤ v ∨ nw = true
        · rw [if_pos hf]
          exact garM_spec gar (firstAnc gar) reg nw (fun q hq => isAnc_lt_first hq) _ v w c rfl hself
        · rw [if_neg hf]
          exact ⟨_, rfl, fun _ => hself, fun b => Red.refl_of (fun q hq => isAnc_lt_first (by omega)) fun _ => rfl⟩
      obtain ⟨g, g1, g2, g3⟩ := hg
      rw [g1]
      obtain ⟨s1, s2⟩ := padGar_spec gar reg (v + 1) g2 (fun _ => hself : MOk (v + 1) ⟨.node v w c, 1⟩) g3 (gar.length - (v + 1))
      rw [show v + 1 + (gar.length - (v + 1)) = n by omega] at s1 s2
      refine ⟨_, rfl, MOk.lookup fun h => s1 (left_ne_zero_of_mul (magW_ne h)), fun b => ?_⟩
      have := matS_smul s2 e.w (w := magW nw ((padGar gar reg (v + 1) (gar.length - (v + 1)) g).w * e.w)) (w' := e.w)
        (by rw [normSq_magW, map_mul]) (by simp) b
      have e1 : (⟨.node v w c, e.w⟩ : MEdge) = e := by rw [← hp]
      simp only [e1] at this
      intro a
      rw [← this a]
      unfold matS
      simp only [lookup_mat]

/-! ### Magnitudes only -/

/-- A number that is its own magnitude. -/
def IsMag (z : ℂ) : Prop := ∃ r : ℝ, 0 ≤ r ∧ z = r

theorem IsMag.eq {z : ℂ} (h : IsMag z) {s : ℝ} (hs : normSq z = s) : z = ((√s : ℝ) : ℂ) := by
  obtain ⟨r, hr, rfl⟩ := h
  rw [Complex.normSq_ofReal] at hs
  rw [← hs, Real.sqrt_mul_self hr]

theorem IsMag.mul {y z : ℂ} (hy : IsMag y) (hz : IsMag z) : IsMag (y * z) := by
  obtain ⟨r, hr, rfl⟩ := hy
  obtain ⟨s, hs, rfl⟩ := hz
  exact ⟨r * s, mul_nonneg hr hs, by simp⟩

theorem IsMag.div {y z : ℂ} (hy : IsMag y) (hz : IsMag z) : IsMag (y / z) := by
  obtain ⟨r, hr, rfl⟩ := hy
  obtain ⟨s, hs, rfl⟩ := hz
  exact ⟨r / s, div_nonneg hr hs, by simp⟩

theorem IsMag.sqrt (a : ℝ) : IsMag ((√a : ℝ) : ℂ) := ⟨_, Real.sqrt_nonneg a, rfl⟩

theorem IsMag.zero : IsMag 0 := ⟨0, le_rfl, by simp⟩
theorem IsMag.one : IsMag 1 := ⟨1, zero_le_one, by simp⟩

/-- All weights below a node are magnitudes. -/
def MagN {ι : Type} : Node ι → Prop
  | .term => True
  | .node _ w c => ∀ b, IsMag (w b) ∧ MagN (c b)

/-- All weights of an edge are magnitudes. -/
def MagE {ι : Type} (e : Edge ι) : Prop := IsMag e.w ∧ MagN e.p

theorem MagE.zero {ι : Type} : MagE (.zero : Edge ι) := ⟨IsMag.zero, trivial⟩

theorem MagN.vval {p : VNode} (h : MagN p) (x : Bits) : IsMag (DD.vval p x) := by
  induction p with
  | term => exact IsMag.one
  | node v w c ih => exact (h _).1.mul (ih _ (h _).2)

theorem MagE.expand {n : ℕ} {p : MNode} (h : MagN p) (b : RC) : MagE (DD.expand n p b) := by
  cases p with
  | term =>
    unfold DD.expand
    split_ifs
    · exact ⟨IsMag.one, trivial⟩
    · exact MagE.zero
  | node v w c =>
    unfold DD.expand
    simp only
    split_ifs
    · exact h b
    · exact ⟨IsMag.one, h⟩
    · exact MagE.zero

theorem MagN.mval {p : MNode} (h : MagN p) (n : ℕ) (x y : Bits) : IsMag (DD.mval n p x y) := by
  induction n generalizing p with
  | zero => exact IsMag.one
  | succ n ih => exact (MagE.expand h _).1.mul (ih (MagE.expand h _).2)

theorem MagE.vec {e : VEdge} (h : MagE e) (x : Bits) : IsMag (e.vec x) := h.1.mul (h.2.vval x)
theorem MagE.mat {e : MEdge} (h : MagE e) (n : ℕ) (x y : Bits) : IsMag (e.mat n x y) := h.1.mul (h.2.mval n x y)

theorem MagE.lookup {ι : Type} {e : Edge ι} (h : MagE e) : MagE e.lookup := by
  unfold Edge.lookup
  split_ifs
  · exact ⟨h.1, trivial⟩
  · exact h

theorem MagE.makeV {v : ℕ} {e : Bool → VEdge} (h : ∀ b, MagE (e b)) : MagE (DD.makeV v e) := by
  unfold DD.makeV
  rw [vNormalize_eq]
  have ht : IsMag (vtop fun b => (e b).w) := by
    unfold vtop
    exact (h _).1.mul ⟨_, div_nonneg (Real.sqrt_nonneg _) (Real.sqrt_nonneg _), rfl⟩
  split_ifs
  · exact MagE.zero
  · refine ⟨ht, fun b => ⟨(h b).1.div ht, ?_⟩⟩
    simp only
    split_ifs
    · trivial
    · exact (h b).2

theorem MagE.makeM {v : ℕ} {e : RC → MEdge} (h : ∀ b, MagE (e b)) : MagE (DD.makeM v e) := by
  have key : MagE (mNormalize v e) := by
    rw [mNormalize_eq]
    have ht : IsMag (mtop fun b => (e b).w) := by
      unfold mtop
      split
      · exact IsMag.zero
      · exact (h _).1
    split_ifs
    · exact MagE.zero
    · refine ⟨ht, fun b => ⟨(h b).1.div ht, ?_⟩⟩
      simp only
      split_ifs
      · trivial
      · exact (h b).2
  unfold DD.makeM skipId
  cases hp : (mNormalize v e).p with
  | term => exact key
  | node u w c =>
    simp only
    split_ifs
    · have := key.2
      rw [hp] at this
      exact ⟨key.1, (this _).2⟩
    · exact key

theorem magPre_mag {ι : Type} {x y r : Edge ι} (hx : MagN x.p) (hy : MagN y.p) (h : magPre x y = some r) : MagE r := by
  unfold magPre at h
  split_ifs at h <;> cases h
  · exact MagE.zero
  · exact ⟨IsMag.sqrt _, hy⟩
  · exact ⟨IsMag.sqrt _, hx⟩
  · exact ⟨IsMag.sqrt _, hx⟩

theorem collect_eq {ι α : Type} {f : ι → Option α} {g : ι → α} (h : collect f = some g) (i : ι) : f i = some (g i) := by
  unfold collect at h
  split_ifs at h with h'
  cases h
  simp

theorem recV_mag (n : ℕ) {x y r : VEdge} (hx : MagN x.p) (hy : MagN y.p) (h : recV magPre n x y = some r) : MagE r := by
  induction n generalizing x y r with
  | zero => exact magPre_mag hx hy h
  | succ n ih =>
    rw [recV] at h
    cases hq : magPre x y with
    | some s =>
      rw [hq] at h
      cases h
      exact magPre_mag hx hy hq
    | none =>
      rw [hq] at h
      simp only [Option.map_eq_some_iff] at h
      obtain ⟨g, hg, rfl⟩ := h
      refine MagE.makeV fun b => ?_
      have := collect_eq hg b
      obtain ⟨e1, h1, h2⟩ := Option.bind_eq_some_iff.1 this
      obtain ⟨e2, h3, h4⟩ := Option.bind_eq_some_iff.1 h2
      have hs : ∀ {x e : VEdge}, MagN x.p → vsucc x b = some e → MagN e.p := by
        intro x e hx h
        unfold vsucc at h
        cases hp : x.p with
        | term => rw [hp] at h; cases h
        | node v w c =>
          rw [hp] at h hx
          cases h
          exact (hx b).2
      exact ih (hs hx h1) (hs hy h3) h4

theorem recM_mag (n : ℕ) {x y r : MEdge} (hx : MagN x.p) (hy : MagN y.p) (h : recM magPre n x y = some r) : MagE r := by
  induction n generalizing x y r with
  | zero => exact magPre_mag hx hy h
  | succ n ih =>
    rw [recM] at h
    cases hq : magPre x y with
    | some s =>
      rw [hq] at h
      cases h
      exact magPre_mag hx hy hq
    | none =>
      rw [hq] at h
      simp only [Option.map_eq_some_iff] at h
      obtain ⟨g, hg, rfl⟩ := h
      refine MagE.makeM fun b => ?_
      have hs : ∀ {x : MEdge}, MagN x.p → MagN (msucc n x b).p := by
        intro x hx
        unfold msucc
        cases hp : x.p with
        | term => simp only; split_ifs <;> simp [hp, MagN]
        | node v w c =>
          rw [hp] at hx
          simp only
          split_ifs
          · rw [hp]; exact hx
          · simp [MagN]
          · exact (hx b).2
          · exact (hx b).2
      exact ih (hs hx) (hs hy) (collect_eq hg b)

theorem magW_mag (z : ℂ) : IsMag (magW true z) := by
  unfold magW
  exact IsMag.sqrt _

theorem garV_mag (gar : List Bool) (lb : ℕ) (p : VNode) : ∀ r, garV gar lb true p = some r → MagE r := by
  induction p with
  | term => intro r h; cases h
  | node v w c ih =>
    intro r h
    rw [garV, if_neg (by simp)] at h
    obtain ⟨edges, h1, h2⟩ := Option.bind_eq_some_iff.1 h
    have he : ∀ b, MagE (edges b) := by
      intro b
      have := collect_eq h1 b
      cases hcb : c b with
      | term =>
        simp only [hcb, Option.some.injEq] at this
        rw [← this]
        exact ⟨magW_mag _, trivial⟩
      | node v' w' c' =>
        simp only [hcb, Option.map_eq_some_iff] at this
        obtain ⟨s, hs, hs'⟩ := this
        rw [← hs']
        exact ⟨magW_mag _, (ih b s (by rw [hcb]; exact hs)).2⟩
    split_ifs at h2
    · obtain ⟨s, hs, rfl⟩ := Option.map_eq_some_iff.1 h2
      refine MagE.makeV fun b => ?_
      cases b
      · exact recV_mag v (he _).2 (he _).2 hs
      · exact MagE.zero
    · cases h2
      exact MagE.makeV he

/-- With `normalizeWeights` only magnitudes are left in a vector. -/
theorem reduceGarbageV_mag {e r : VEdge} {gar : List Bool} (h : reduceGarbageV e gar true = some r) : MagE r := by
  unfold reduceGarbageV at h
  rw [if_neg (by simp)] at h
  cases hp : e.p with
  | term => rw [hp] at h; cases h
  | node v w c =>
    rw [hp] at h
    simp only [Bool.true_eq_false, false_and, if_false] at h
    split_ifs at h
    obtain ⟨s, hs, rfl⟩ := Option.map_eq_some_iff.1 h
    exact MagE.lookup ⟨magW_mag _, (garV_mag gar _ _ s hs).2⟩

theorem padGar_mag (gar : List Bool) (reg : Bool) (lo : ℕ) {g : MEdge} (hg : MagE g) (k : ℕ) : MagE (padGar gar reg lo k g) := by
  induction k with
  | zero => exact hg
  | succ k ih =>
    rw [padGar]
    split_ifs
    · refine MagE.makeM fun b => ?_
      split_ifs
      · exact MagE.zero
      · exact ih
    · exact ih

theorem garM_mag (gar : List Bool) (lb : ℕ) (reg : Bool) (p : MNode) : ∀ r, garM gar lb reg true p = some r → MagE r := by
  induction p with
  | term => intro r h; cases h
  | node v w c ih =>
    intro r h
    rw [garM, if_neg (by simp)] at h
    obtain ⟨edges, h1, h2⟩ := Option.bind_eq_some_iff.1 h
    have he : ∀ b, MagE (edges b) := by
      intro b
      have := collect_eq h1 b
      split_ifs at this
      · rw [← Option.some.inj this]
        exact MagE.zero
      · cases hcb : c b with
        | term =>
          simp only [hcb, Option.some.injEq] at this
          rw [← this]
          have := padGar_mag gar reg lb (g := .one) ⟨IsMag.one, trivial⟩ (v - lb)
          exact ⟨this.1.mul (magW_mag _), this.2⟩
        | node v' w' c' =>
          simp only [hcb, Option.map_eq_some_iff] at this
          obtain ⟨s, hs, hs'⟩ := this
          rw [← hs']
          exact ⟨magW_mag _, (padGar_mag gar reg _ (ih b s (by rw [hcb]; exact hs)) _).2⟩
    by_cases hg : isAnc gar v = true
    · rw [if_pos hg] at h2
      obtain ⟨s, hs, rfl⟩ := Option.map_eq_some_iff.1 h2
      refine MagE.makeM fun b => ?_
      have := fun β => recM_mag v (he _).2 (he _).2 (collect_eq hs β)
      split_ifs
      · exact MagE.zero
      · exact this _
      · exact this _
    · rw [if_neg hg] at h2
      cases h2
      exact MagE.makeM he

/-- With `normalizeWeights` only magnitudes are left in a matrix other than a multiple of the identity. -/
theorem reduceGarbageM_mag {e r : MEdge} {gar : List Bool} {reg : Bool} (hp : e.p ≠ .term)
    (h : reduceGarbageM e gar reg true = some r) : MagE r := by
  unfold reduceGarbageM at h
  rw [if_neg (by simp)] at h
  cases hq : e.p with
  | term => exact absurd hq hp
  | node v w c =>
    rw [hq] at h
    simp only [or_true, true_and, if_true] at h
    split_ifs at h
    obtain ⟨s, hs, rfl⟩ := Option.map_eq_some_iff.1 h
    exact MagE.lookup ⟨magW_mag _, (padGar_mag gar reg _ (garM_mag gar _ reg _ s hs) _).2⟩

end MQT.DD
