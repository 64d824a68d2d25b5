/-
Trace and partial trace of decision diagrams (C40).
-/
import Verif.DD.Trace
import Verif.Props.DDKron

set_option autoImplicit false

noncomputable section

open Classical

namespace MQT.DD

open MQT.IR (Bits State)

theorem elim_replicate (n q : ℕ) : elim (List.replicate n true) q = decide (q < n) := by
  unfold elim
  by_cases h : q < n
  · rw [List.getD_eq_getElem _ _ (by simpa using h)]; simp [h]
  · rw [List.getD_eq_default _ _ (by simpa using h)]; simp [h]

/-- **C40 (trace).** For every matrix on `n` qubits, `trace(a, n)` is the sum of the diagonal
entries divided by `2^n`. -/
theorem c40_trace {n : ℕ} {a : MEdge} (ha : MECan n a) :
    trace a n = some ((∑ t : Fin n → Bool, a.mat n (fill t fun _ => false)
      (fill t fun _ => false)) / 2 ^ n) := by
  have hsp : ∀ (t x : Bits), ∀ q < n, spread (List.replicate n true) t x q = t q := by
    intro t x q hq
    unfold spread
    rw [elim_replicate, if_pos (by simpa using hq)]
  have hptr : ∀ x y, ptr (List.replicate n true) n a x y
      = (∑ t : Fin n → Bool, a.mat n (fill t fun _ => false) (fill t fun _ => false)) / 2 ^ n := by
    intro x y
    rw [ptr, sumB_eq]
    have : ∀ t, a.mat n (spread (List.replicate n true) t x) (spread (List.replicate n true) t y)
        = a.mat n t t := fun t => mat_congr a n (hsp t x) (hsp t y)
    simp only [this]
    rw [one_div, inv_pow]
    ring
  unfold trace
  by_cases h : a.p = .term ∧ a.w ≠ 0
  · rw [if_pos h, ← hptr (fun _ => false) (fun _ => false)]
    have hae : a = ⟨.term, a.w⟩ := by ext; exacts [h.1, rfl]
    rw [hae, ptr_term]
    have : rank (List.replicate n true) n = 0 := by
      have hr : ∀ m ≤ n, rank (List.replicate n true) m = 0 := by
        intro m hm
        induction m with
        | zero => rfl
        | succ m ih => rw [rank, ih (by omega), elim_replicate, if_pos (by simpa using hm)]
      exact hr n le_rfl
    rw [this]
    simp [Edge.mat, mval]
  · rw [if_neg h]
    have hrank : ∀ m ≤ n, rank (List.replicate n true) m = 0 := by
      intro m hm
      induction m with
      | zero => rfl
      | succ m ih => rw [rank, ih (by omega), elim_replicate, if_pos (by simpa using hm)]
    have hel : ∀ m ≤ n, elims (List.replicate n true) m = m := by
      intro m hm
      have := rank_add_elims (List.replicate n true) m
      rw [hrank m hm] at this; omega
    have hok : ∀ (p : MNode) (level sk m : ℕ), MCan m p → m ≤ n →
        ElimOk (List.replicate n true) level sk m p := by
      intro p
      induction p with
      | term => intros; trivial
      | node v w c ih =>
        intro level sk m hm hmn
        have hv := hm.1
        rw [ElimOk]
        right
        rw [elim_replicate, if_pos (by simp; omega)]
        intro b _ hb
        exact ih b _ _ v ((hm.2.2.2 b).2 hb) (by omega)
    have hfull := traceRec_full (List.replicate n true) a.p a.w n n 0 ha le_rfl (by simp)
      (fun q hq => by rw [elim_replicate]; simpa using hq)
    obtain ⟨r, h1, h2, h3⟩ := traceRec_spec (List.replicate n true) a.p a.w n n 0 0 ha le_rfl
      (by simp) (by simp) (fun h0 => hok _ _ _ _ (ha.2 h0) le_rfl)
    rw [h1]
    rw [hfull] at h1
    obtain rfl := Option.some.inj h1
    rw [Option.map_some, ← hptr (fun _ => false) (fun _ => false)]
    have := h3 (fun _ => false) (fun _ => false)
    rw [hrank n le_rfl] at this
    rw [← this]
    simp [Edge.mat, mval]

/-- **C40 (partial trace), partial.** For every matrix and every set of eliminated qubits such
that no eliminated level is skipped above a kept node, `partialTrace` yields the normalised
partial trace: the average over the values `t` of the eliminated qubits of the entries whose
kept qubits are given by `x` and `y`. Missing: other shapes, for which the statement is false
(`c40_underflow`, `c40_partial_trace_wrong`). -/
theorem c40_partial_trace_partial {a : MEdge} {el : List Bool} (ha : MECan el.length a)
    (hok : ElimOk el el.length 0 el.length a.p) :
    ∃ r, partialTrace a el = some r ∧ MOk (rank el el.length) r ∧ ∀ x y,
      r.mat (rank el el.length) x y
        = (∑ t : Fin el.length → Bool, a.mat el.length
            (fun q => if elim el q then fill t (fun _ => false) q else x (rank el q))
            (fun q => if elim el q then fill t (fun _ => false) q else y (rank el q)))
          / 2 ^ el.length := by
  obtain ⟨r, h1, h2, h3⟩ := traceRec_spec el a.p a.w el.length el.length 0 0 ha le_rfl le_rfl
    (by simp) (fun _ => hok)
  refine ⟨r, h1, h2, fun x y => ?_⟩
  rw [h3, ptr, sumB_eq, one_div, inv_pow, inv_mul_eq_div]
  rfl

/-- **C40 (partial trace over the lowest qubits).** Without any condition on the shape, if
every eliminated qubit is below every kept one. -/
theorem c40_partial_trace_low {a : MEdge} {el : List Bool} (ha : MECan el.length a)
    (hlow : ∀ q r, q < r → r < el.length → elim el r = true → elim el q = true) :
    ∃ r, partialTrace a el = some r ∧ MOk (rank el el.length) r ∧ ∀ x y,
      r.mat (rank el el.length) x y
        = (∑ t : Fin el.length → Bool, a.mat el.length
            (fun q => if elim el q then fill t (fun _ => false) q else x (rank el q))
            (fun q => if elim el q then fill t (fun _ => false) q else y (rank el q)))
          / 2 ^ el.length := by
  by_cases h0 : a.w = 0
  · apply c40_partial_trace_partial ha
    rw [ha.1 h0]; trivial
  apply c40_partial_trace_partial ha
  have key : ∀ (p : MNode) (level sk m : ℕ), MCan m p → m ≤ el.length →
      (sk ≠ 0 → ∀ q < m, elim el q = true) → ElimOk el level sk m p := by
    intro p
    induction p with
    | term => intros; trivial
    | node v w c ih =>
      intro level sk m hm hmn hsk
      have hv := hm.1
      rw [ElimOk]
      right
      by_cases he : elim el v = true
      · rw [if_pos he]
        intro b _ hb
        exact ih b _ _ v ((hm.2.2.2 b).2 hb) (by omega)
          (fun _ q hq => hlow q v hq (by omega) he)
      · rw [if_neg he]
        have hsk0 : sk = 0 := by
          by_contra h
          exact he (hsk h v hv)
        have hse : ∀ k, v + 1 + k ≤ m → elims el (v + 1 + k) = elims el (v + 1) := by
          intro k
          induction k with
          | zero => intro _; rfl
          | succ k ihk =>
            intro hk
            have hne : ¬ elim el (v + 1 + k) = true := fun h =>
              he (hlow v (v + 1 + k) (by omega) (by omega) h)
            rw [← Nat.add_assoc, elims, ihk (by omega), if_neg hne, Nat.add_zero]
        have := hse (m - (v + 1)) (by omega)
        rw [show v + 1 + (m - (v + 1)) = m by omega] at this
        refine ⟨by omega, fun b hb => ?_⟩
        exact ih b _ _ v ((hm.2.2.2 b).2 hb) (by omega) (fun h => absurd rfl h)
  exact key _ _ _ _ (ha.2 h0) le_rfl (fun h => absurd rfl h)

/-- **C40 (compute table).** The table `matrixTrace`, which is keyed by the node only, changes
no result, whatever qubits were eliminated in earlier calls. -/
theorem c40_table_transparent (calls : List (MEdge × List Bool))
    (hcalls : ∀ c ∈ calls, MECan c.2.length c.1) {a : MEdge} {el : List Bool}
    (ha : MECan el.length a) (t : TTable)
    (ht : calls.foldl (fun t c => t.bind fun t =>
      (traceT c.2 c.1.p c.1.w c.2.length 0 t).map Prod.snd) (some fun _ => none) = some t) :
    (traceT el a.p a.w el.length 0 t).map Prod.fst = partialTrace a el := by
  have hok : ∀ t0 : TTable, t0.Ok → calls.foldl (fun t c => t.bind fun t =>
      (traceT c.2 c.1.p c.1.w c.2.length 0 t).map Prod.snd) (some t0) = some t → t.Ok := by
    clear ht
    induction calls with
    | nil => intro t0 h0 h; rw [List.foldl_nil] at h; rw [← Option.some.inj h]; exact h0
    | cons c l ih =>
      intro t0 h0 h
      rw [List.foldl_cons] at h
      have hs := traceT_spec c.2 c.1.p c.1.w c.2.length c.2.length 0 t0 h0
        (hcalls c List.mem_cons_self) le_rfl le_rfl
      cases hr : traceRec c.2 c.1.p c.1.w c.2.length 0 with
      | none =>
        have hnone : ∀ l : List (MEdge × List Bool), l.foldl (fun t c => t.bind fun t =>
            (traceT c.2 c.1.p c.1.w c.2.length 0 t).map Prod.snd) none = none := by
          intro l
          induction l with
          | nil => rfl
          | cons d l ih => exact ih
        simp only [Option.bind_some, hs.2 hr, Option.map_none] at h
        rw [hnone] at h
        cases h
      | some r =>
        obtain ⟨t', h1, h2⟩ := hs.1 r hr
        simp only [Option.bind_some, h1, Option.map_some] at h
        exact ih (fun c hc => hcalls c (List.mem_cons_of_mem _ hc)) t' h2 h
  have h0 := hok _ (fun p r h => by simp at h) ht
  have hs := traceT_spec el a.p a.w el.length el.length 0 t h0 ha le_rfl le_rfl
  unfold partialTrace
  cases hr : traceRec el a.p a.w el.length 0 with
  | none => rw [hs.2 hr]; rfl
  | some r => obtain ⟨t', h1, _⟩ := hs.1 r hr; rw [h1]; rfl

/-! ### Counterexamples -/

theorem xGate_shape (q : ℕ) : xGate q = ⟨.node q (fun b => if b.1 = b.2 then 0 else 1)
    (fun _ => .term), 1⟩ := by
  unfold xGate makeM
  have hm : ∀ b : RC, (if b.1 = b.2 then (Edge.zero : MEdge) else .one).w
      = if b.1 = b.2 then 0 else 1 := by intro b; split_ifs <;> rfl
  have ht : mtop (fun b : RC => if b.1 = b.2 then (0 : ℂ) else 1) = 1 := by
    have hc := xGate_can q
    obtain ⟨w, c, hp, hw⟩ := xGate_p q
    simp [mtop, marg, margStep, rcs]
  rw [mNormalize_eq]
  simp only [hm, ht]
  rw [if_neg one_ne_zero]
  have hp : ∀ b : RC, (if (if b.1 = b.2 then (0 : ℂ) else 1) = 0 then (Node.term : MNode)
      else (if b.1 = b.2 then (Edge.zero : MEdge) else .one).p) = .term := by
    intro b; split_ifs <;> rfl
  simp only [hp, div_one, skipId]
  rw [if_neg]
  rintro ⟨_, h, _⟩
  simp at h

/-- **C40 is false in general.** Tracing qubit 1 out of the two-qubit matrix `I ⊗ X` (whose
result is `X`) computes level `0 - 1`. -/
theorem c40_underflow : MECan 2 (xGate 0) ∧ partialTrace (xGate 0) [false, true] = none := by
  refine ⟨(xGate_can 0).up (by omega), ?_⟩
  unfold partialTrace
  rw [xGate_shape]
  simp only [List.length_cons, List.length_nil, Nat.reduceAdd]
  rw [traceRec, if_neg one_ne_zero, if_neg (by simp)]
  simp only [List.getElem?_cons_zero]
  cases (collect fun b : RC =>
    traceRec [false, true] .term (if b.1 = b.2 then 0 else 1) (2 - 1) 0) with
  | none => rfl
  | some edge => simp

/-- **C40 is false in general.** Tracing qubit 2 out of the three-qubit matrix `I ⊗ X ⊗ I`
gives `X` on qubit 0 instead of qubit 1: entry `(|01⟩, |00⟩)` is 1, the partial trace has 0. -/
theorem c40_partial_trace_wrong :
    MECan 3 (xGate 1) ∧ ∃ r, partialTrace (xGate 1) [false, false, true] = some r ∧
      ∃ x y, r.mat 2 x y = 1 ∧ ptr [false, false, true] 3 (xGate 1) x y = 0 := by
  refine ⟨(xGate_can 1).up (by omega), xGate 0, ?_, fun q => decide (q = 0), fun _ => false, ?_, ?_⟩
  · have hc : (collect fun b : RC =>
        traceRec [false, false, true] .term (if b.1 = b.2 then 0 else 1) 2 0)
        = some (fun b : RC => if b.1 = b.2 then .zero else .one) := by
      apply collect_some
      rintro ⟨i, j⟩
      cases i <;> cases j <;> simp [traceRec, Edge.one]
    unfold partialTrace
    rw [xGate_shape]
    simp only [List.length_cons, List.length_nil, Nat.reduceAdd]
    rw [traceRec, if_neg one_ne_zero, if_neg (by simp)]
    simp only [List.getElem?_cons_succ, List.getElem?_cons_zero, Nat.reduceSub, hc]
    rw [if_neg (by simp)]
    have h1 : (1 - (List.count true [false, false, true] - 0)) = 0 := by decide
    rw [h1]
    simp only [mul_one]
    rfl
  · rw [mat_lift (xGate_can 0).ok (by omega : 0 + 1 ≤ 2), if_pos, xGate_mat, if_pos (by simp)]
    intro q h1 h2
    simp; omega
  · rw [ptr_lift (xGate_can 1).ok (by omega), if_pos]
    · have hn : ∀ q < 1 + 1, elim [false, false, true] q = false := by
        intro q hq
        have : q = 0 ∨ q = 1 := by omega
        rcases this with rfl | rfl <;> rfl
      rw [ptr_none hn, xGate_mat, if_neg (by simp)]
    · intro q h1 h2
      have e1 : rank [false, false, true] (1 + 1) = 2 := rfl
      have e2 : rank [false, false, true] 3 = 2 := rfl
      omega

/-- `Z` on qubit 1 times `X` on qubit 0. -/
def zxGate : MEdge :=
  ⟨.node 1 (fun b => if b = (false, false) then 1 else if b = (true, true) then -1 else 0)
    (fun b => if b.1 = b.2 then (xGate 0).p else .term), 1⟩

/-- **C40: a zero result that is not the zero edge.** Tracing qubit 1 out of `Z ⊗ X` gives an
edge with weight zero that points to the node of `X` instead of the terminal, so that it is not
equal to `mEdge::zero()` and not in the shape the package maintains. -/
theorem c40_zero_not_terminal :
    ∃ r, partialTrace zxGate [false, true] = some r ∧ r.w = 0 ∧ r.p ≠ .term ∧ ¬ MECan 1 r := by
  obtain ⟨w, c, hp, _⟩ := xGate_p 0
  have hsub : ∀ z : ℂ, z ≠ 0 → traceRec [false, true] (xGate 0).p z 1 1 = some ⟨(xGate 0).p, z⟩ := by
    intro z hz
    rw [hp, traceRec, if_neg hz, if_pos (by simp)]
  have hadd : madd2 1 ⟨(xGate 0).p, 1⟩ ⟨(xGate 0).p, -1⟩ = some ⟨(xGate 0).p, 0⟩ := by
    unfold madd2
    rw [recM]
    unfold addPre
    simp
  have hr : partialTrace zxGate [false, true] = some ⟨(xGate 0).p, 0⟩ := by
    unfold partialTrace zxGate
    simp only [List.length_cons, List.length_nil, Nat.reduceAdd]
    rw [traceRec, if_neg one_ne_zero, if_neg (by simp)]
    simp only [List.getElem?_cons_succ, List.getElem?_cons_zero, Nat.reduceSub, Nat.reduceAdd]
    simp only [if_true, Prod.mk.injEq, Bool.true_eq_false, Bool.false_eq_true, and_self, if_false]
    rw [hsub 1 one_ne_zero, hsub (-1) (neg_ne_zero.2 one_ne_zero)]
    simp only [hadd, Option.map_some]
    simp
  refine ⟨_, hr, rfl, ?_, ?_⟩
  · rw [hp]; exact fun h => by cases h
  · intro h
    have := h.1 rfl
    rw [hp] at this
    cases this

/-- The trace of `X` is 0, that of `3 I` on two qubits is 3 (normalised). -/
example : trace (xGate 0) 1 = some 0 := by
  rw [c40_trace (xGate_can 0), ← sumB_eq 1 (fun t => (xGate 0).mat 1 t t)]
  simp [sumB, xGate_mat 0]

example : trace ⟨.term, 3⟩ 2 = some 3 := by
  unfold trace
  rw [if_pos ⟨rfl, by norm_num⟩]

/-- Tracing qubit 0 out of `X ⊗ I` leaves `X`. -/
example : ∃ r, partialTrace (xGate 1) [true, false] = some r ∧
    r.mat 1 (fun _ => true) (fun _ => false) = 1 := by
  obtain ⟨r, h1, _, h3⟩ := c40_partial_trace_low (a := xGate 1) (el := [true, false]) (xGate_can 1)
    (by
      intro q r h1 h2 h3
      have hr : r < 2 := h2
      have : r = 1 := by omega
      subst this
      exact absurd h3 (by decide))
  refine ⟨r, h1, ?_⟩
  have := h3 (fun _ => true) (fun _ => false)
  rw [show rank [true, false] [true, false].length = 1 from rfl] at this
  rw [this]
  have e : ∀ t : Fin 2 → Bool, (xGate 1).mat 2
      (fun q => if elim [true, false] q = true then fill t (fun _ => false) q else true)
      (fun q => if elim [true, false] q = true then fill t (fun _ => false) q else false) = 1 := by
    intro t
    rw [xGate_mat 1, if_pos]
    refine ⟨by simp [elim], fun k hk => ?_⟩
    obtain rfl : k = 0 := by omega
    simp [elim]
  simp only [List.length_cons, List.length_nil, Nat.reduceAdd, e]
  simp
  norm_num

end MQT.DD
