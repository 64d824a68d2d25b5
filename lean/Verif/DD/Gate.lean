/-
Decision diagrams of (multi-controlled) one- and two-qubit gates.

Source in /repo, src/dd/Package.cpp:
  345-415   `makeGateDD`
  417-538   `makeTwoQubitGateDD`

Controls are the elements of the `std::set<Control>` in its order, i.e. sorted by
qubit.  `none` is the exception thrown when a qubit is out of range.
-/
import Verif.DD.Multiply

set_option autoImplicit false

noncomputable section

open Classical
open Function (update)

namespace MQT.DD

open MQT.IR (Bits State Ctrl Mat1 Mat2 app1 app2 ctl Sat)

/-! ### Model -/

/-- The node created for a control: `inner` where the control is satisfied, `base`
where it is not (`edges[0]`, `edges[3]`; `edges[1]` and `edges[2]` stay zero). -/
def ctlNode (c : Ctrl) (base inner : MEdge) : MEdge :=
  makeM c.1 (fun b =>
    if c.2 = false then
      match b with
      | (false, false) => inner
      | (true, true) => base
      | _ => .zero
    else
      match b with
      | (false, false) => base
      | (true, true) => inner
      | _ => .zero)

/-- `(i1 == i2) ? one : zero`. -/
def deltaEdge {α : Type} (r c : α) : MEdge := if r = c then .one else .zero

/-- The loop over the lines below (and between) the targets, on all entries. -/
def gateBelow {α : Type} (cs : List Ctrl) (em : α → α → MEdge) : α → α → MEdge :=
  cs.foldl (fun em c => fun r k => ctlNode c (deltaEdge r k) (em r k)) em

/-- The loop over the lines above the target. -/
def gateAbove (cs : List Ctrl) (e : MEdge) : MEdge :=
  cs.foldl (fun e c => ctlNode c .one e) e

/-- `makeGateDD`, for a package of `nqubits` qubits. -/
def makeGateDD (nqubits : ℕ) (M : Mat1) (controls : List Ctrl) (target : ℕ) : Option MEdge :=
  if (controls.any fun c => decide (c.1 > nqubits - 1)) = true ∨ target > nqubits - 1 then none
  else
    let em : Bool → Bool → MEdge := fun r c => .terminal (M r c)
    if controls = [] then
      some (makeM target (fun b => em b.1 b.2))
    else
      let below := controls.takeWhile (fun c => decide (c.1 < target))
      let above := controls.dropWhile (fun c => decide (c.1 < target))
      let em' := gateBelow below em
      some (gateAbove above (makeM target (fun b => em' b.1 b.2)))

/-- `makeTwoQubitGateDD`. -/
def makeTwoQubitGateDD (nqubits : ℕ) (M : Mat2) (controls : List Ctrl) (t0 t1 : ℕ) :
    Option MEdge :=
  if (controls.any fun c => decide (c.1 > nqubits - 1)) = true ∨ t0 > nqubits - 1 ∨
      t1 > nqubits - 1 then none
  else
    let em : RC → RC → MEdge := fun r c => .terminal (M r c)
    let smaller := min t0 t1
    let larger := max t0 t1
    let below := controls.takeWhile (fun c => decide (c.1 < smaller))
    let rest := controls.dropWhile (fun c => decide (c.1 < smaller))
    let em' := gateBelow below em
    let em0 : Bool → Bool → MEdge := fun row col =>
      makeM smaller (fun ij =>
        if t0 > t1 then em' (row, ij.1) (col, ij.2) else em' (ij.1, row) (ij.2, col))
    let between := rest.takeWhile (fun c => decide (c.1 < larger))
    let above := rest.dropWhile (fun c => decide (c.1 < larger))
    let em1 := gateBelow between em0
    some (gateAbove above (makeM larger (fun b => em1 b.1 b.2)))

/-! ### What the intermediate diagrams represent -/

/-- Agreement of row and column on all qubits below `k` outside `T`. -/
def AgreeOff (T : Set ℕ) (k : ℕ) (a b : Bits) : Prop := ∀ q < k, q ∉ T → a q = b q

/-- `e` acts as `M` where `S` holds and as `D` elsewhere, on `T`, and as the identity on the
other qubits below `k`. -/
structure Rep (k : ℕ) (T : Set ℕ) (S : Bits → Prop) (M D : Bits → Bits → ℂ) (e : MEdge) :
    Prop where
  ok : MOk k e
  val : ∀ a b, e.mat k a b = if AgreeOff T k a b then (if S a then M a b else D a b) else 0

theorem Rep.lift {k k' : ℕ} {T : Set ℕ} {S : Bits → Prop} {M D : Bits → Bits → ℂ} {e : MEdge}
    (h : Rep k T S M D e) (hk : k ≤ k') (hT : ∀ q ∈ T, q < k) : Rep k' T S M D e := by
  refine ⟨h.ok.up hk, fun a b => ?_⟩
  rw [mat_lift h.ok hk, h.val]
  have : AgreeOff T k' a b ↔ (∀ q, k ≤ q → q < k' → a q = b q) ∧ AgreeOff T k a b := by
    constructor
    · intro h'
      exact ⟨fun q h1 h2 => h' q h2 (fun hq => absurd (hT q hq) (by omega)),
        fun q h1 h2 => h' q (by omega) h2⟩
    · rintro ⟨h1, h2⟩ q hq hqT
      by_cases hlt : q < k
      · exact h2 q hlt hqT
      · exact h1 q (by omega) hq
  simp only [this]
  by_cases h1 : ∀ q, k ≤ q → q < k' → a q = b q <;> by_cases h2 : AgreeOff T k a b <;>
    simp only [h1, h2, if_true, if_false, and_true, and_false, and_self, ite_self]

theorem ctlNode_mat {c : Ctrl} {base inner : MEdge} (hb : MOk c.1 base) (hi : MOk c.1 inner)
    (a b : Bits) : (ctlNode c base inner).mat (c.1 + 1) a b
      = if a c.1 = b c.1 then (if a c.1 = c.2 then inner.mat c.1 a b else base.mat c.1 a b)
        else 0 := by
  unfold ctlNode
  rw [makeM_mat]
  · obtain ⟨q, v⟩ := c
    cases v <;> cases ha : a q <;> cases hb : b q <;> simp_all
  · rintro ⟨r, s⟩
    obtain ⟨q, v⟩ := c
    cases v <;> cases r <;> cases s <;> simp only [if_true] <;>
      first | exact hb | exact hi | exact MOk.zero _

theorem ctlNode_ok {c : Ctrl} {base inner : MEdge} (hb : MOk c.1 base) (hi : MOk c.1 inner) :
    MOk (c.1 + 1) (ctlNode c base inner) := by
  unfold ctlNode
  refine (makeM_can ?_).ok
  rintro ⟨r, s⟩
  obtain ⟨q, v⟩ := c
  cases v <;> cases r <;> cases s <;> simp only [if_true] <;>
    first | exact hb | exact hi | exact MOk.zero _

theorem agreeOff_succ {T : Set ℕ} {k : ℕ} (hT : k ∉ T) (a b : Bits) :
    AgreeOff T (k + 1) a b ↔ a k = b k ∧ AgreeOff T k a b := by
  constructor
  · intro h
    exact ⟨h k (by omega) hT, fun q hq hqT => h q (by omega) hqT⟩
  · rintro ⟨h1, h2⟩ q hq hqT
    rcases Nat.lt_succ_iff_lt_or_eq.1 hq with h | rfl
    · exact h2 q h hqT
    · exact h1

theorem Rep.ctl {T : Set ℕ} {S : Bits → Prop} {M D : Bits → Bits → ℂ} {e base : MEdge} {c : Ctrl}
    (h : Rep c.1 T S M D e) (hb : Rep c.1 T (fun _ => True) D D base) (hT : ∀ q ∈ T, q < c.1) :
    Rep (c.1 + 1) T (fun a => a c.1 = c.2 ∧ S a) M D (ctlNode c base e) := by
  refine ⟨ctlNode_ok hb.ok h.ok, fun a b => ?_⟩
  rw [ctlNode_mat hb.ok h.ok, h.val, hb.val,
    agreeOff_succ (fun hq => absurd (hT _ hq) (lt_irrefl _))]
  by_cases h1 : a c.1 = b c.1 <;> by_cases h2 : a c.1 = c.2 <;> by_cases h3 : AgreeOff T c.1 a b <;>
    by_cases h4 : S a <;> simp [h1, h2, h3, h4]

theorem Rep.congr {k : ℕ} {T : Set ℕ} {S S' : Bits → Prop} {M M' D D' : Bits → Bits → ℂ} {e : MEdge}
    (h : Rep k T S M D e) (hS : ∀ a, S a ↔ S' a) (hM : ∀ a b, M a b = M' a b)
    (hD : ∀ a b, D a b = D' a b) : Rep k T S' M' D' e := by
  obtain rfl : S = S' := funext fun a => propext (hS a)
  obtain rfl : M = M' := funext fun a => funext fun b => hM a b
  obtain rfl : D = D' := funext fun a => funext fun b => hD a b
  exact h

theorem Rep.target {k : ℕ} {T : Set ℕ} {S : Bits → Prop} {M D : RC → Bits → Bits → ℂ}
    {em : RC → MEdge} (h : ∀ i, Rep k T S (M i) (D i) (em i)) :
    Rep (k + 1) (insert k T) S (fun a b => M (a k, b k) a b) (fun a b => D (a k, b k) a b)
      (makeM k em) := by
  refine ⟨(makeM_can (fun i => (h i).ok)).ok, fun a b => ?_⟩
  rw [makeM_mat (fun i => (h i).ok), (h _).val]
  have : AgreeOff (insert k T) (k + 1) a b ↔ AgreeOff T k a b := by
    constructor
    · intro h' q hq hqT
      exact h' q (by omega) (fun hm => by
        rcases Set.mem_insert_iff.1 hm with rfl | hm
        · omega
        · exact hqT hm)
    · intro h' q hq hqT
      have hqk : q ≠ k := fun e => hqT (e ▸ Set.mem_insert _ _)
      exact h' q (by omega) (fun hm => hqT (Set.mem_insert_of_mem _ hm))
  simp only [this]

/-- All controls of the list are satisfied. -/
def SatL (cs : List Ctrl) (a : Bits) : Prop := ∀ c ∈ cs, a c.1 = c.2

theorem satL_cons (c : Ctrl) (cs : List Ctrl) (a : Bits) :
    SatL (c :: cs) a ↔ a c.1 = c.2 ∧ SatL cs a := by
  unfold SatL; simp

theorem gateBelow_rep {α : Type} (cs : List Ctrl) {k t : ℕ} {T : Set ℕ} {S : Bits → Prop}
    {M D : α → α → Bits → Bits → ℂ} {em : α → α → MEdge}
    (hem : ∀ r s, Rep k T S (M r s) (D r s) (em r s))
    (hD : ∀ r s k', k ≤ k' → Rep k' T (fun _ => True) (D r s) (D r s) (deltaEdge r s))
    (hs : cs.Pairwise (fun c d => c.1 < d.1)) (hk : ∀ c ∈ cs, k ≤ c.1 ∧ c.1 < t) (hkt : k ≤ t)
    (hT : ∀ q ∈ T, q < k) (r s : α) :
    Rep t T (fun a => SatL cs a ∧ S a) (M r s) (D r s) (gateBelow cs em r s) := by
  induction cs generalizing k S em with
  | nil =>
    exact ((hem r s).lift hkt hT).congr (fun a => by simp [SatL]) (fun _ _ => rfl) (fun _ _ => rfl)
  | cons c cs ih =>
    have hc := hk c List.mem_cons_self
    have hp := List.pairwise_cons.1 hs
    have := ih (k := c.1 + 1) (S := fun a => a c.1 = c.2 ∧ S a)
      (em := fun r s => ctlNode c (deltaEdge r s) (em r s))
      (fun r s => ((hem r s).lift hc.1 hT).ctl (hD r s c.1 hc.1)
        (fun q hq => lt_of_lt_of_le (hT q hq) hc.1))
      (fun r s k' hk' => hD r s k' (by omega))
      hp.2 (fun d hd => ⟨hp.1 d hd, (hk d (List.mem_cons_of_mem _ hd)).2⟩) hc.2
      (fun q hq => lt_of_lt_of_le (hT q hq) (by omega))
    exact this.congr (fun a => by rw [satL_cons]; tauto) (fun _ _ => rfl) (fun _ _ => rfl)

theorem gateAbove_rep (cs : List Ctrl) {k t : ℕ} {T : Set ℕ} {S : Bits → Prop}
    {M D : Bits → Bits → ℂ} {e : MEdge} (he : Rep k T S M D e)
    (hD : ∀ k', k ≤ k' → Rep k' T (fun _ => True) D D .one)
    (hs : cs.Pairwise (fun c d => c.1 < d.1)) (hk : ∀ c ∈ cs, k ≤ c.1 ∧ c.1 < t) (hkt : k ≤ t)
    (hT : ∀ q ∈ T, q < k) :
    Rep t T (fun a => SatL cs a ∧ S a) M D (gateAbove cs e) := by
  induction cs generalizing k S e with
  | nil =>
    exact (he.lift hkt hT).congr (fun a => by simp [SatL]) (fun _ _ => rfl) (fun _ _ => rfl)
  | cons c cs ih =>
    have hc := hk c List.mem_cons_self
    have hp := List.pairwise_cons.1 hs
    have := ih (k := c.1 + 1) (S := fun a => a c.1 = c.2 ∧ S a) (e := ctlNode c .one e)
      ((he.lift hc.1 hT).ctl (hD c.1 hc.1) (fun q hq => lt_of_lt_of_le (hT q hq) hc.1))
      (fun k' hk' => hD k' (by omega))
      hp.2 (fun d hd => ⟨hp.1 d hd, (hk d (List.mem_cons_of_mem _ hd)).2⟩) hc.2
      (fun q hq => lt_of_lt_of_le (hT q hq) (by omega))
    exact this.congr (fun a => by rw [satL_cons]; tauto) (fun _ _ => rfl) (fun _ _ => rfl)

theorem terminal_rep (k : ℕ) (z : ℂ) (S : Bits → Prop) (hS : ∀ a, S a) (D : Bits → Bits → ℂ) :
    Rep k ∅ S (fun _ _ => z) D (.terminal z) := by
  refine ⟨fun _ => trivial, fun a b => ?_⟩
  rw [Edge.terminal, term_mat]
  have : AgreeOff ∅ k a b ↔ ∀ q < k, a q = b q := by simp [AgreeOff]
  simp only [this, if_pos (hS a)]

/-- The identity, seen as acting as the identity on the qubits `T`. -/
theorem one_rep (k : ℕ) (T : Set ℕ) (hT : ∀ q ∈ T, q < k) {D : Bits → Bits → ℂ}
    (hD : ∀ a b, D a b = if ∀ q ∈ T, a q = b q then 1 else 0) :
    Rep k T (fun _ => True) D D .one := by
  refine ⟨fun _ => trivial, fun a b => ?_⟩
  rw [Edge.one, term_mat, hD]
  have : (∀ q < k, a q = b q) ↔ AgreeOff T k a b ∧ ∀ q ∈ T, a q = b q := by
    constructor
    · intro h; exact ⟨fun q hq _ => h q hq, fun q hq => h q (hT q hq)⟩
    · rintro ⟨h1, h2⟩ q hq
      by_cases hqT : q ∈ T
      · exact h2 q hqT
      · exact h1 q hq hqT
  simp only [this]
  by_cases h1 : AgreeOff T k a b <;> by_cases h2 : ∀ q ∈ T, a q = b q <;>
    simp only [h1, h2, if_true, if_false, and_false, true_and, false_and]

theorem delta_rep {α : Type} (r s : α) (k : ℕ) (T : Set ℕ) (hT : ∀ q ∈ T, q < k) {D : Bits → Bits → ℂ}
    (hD : ∀ a b, D a b = if (∀ q ∈ T, a q = b q) ∧ r = s then 1 else 0) :
    Rep k T (fun _ => True) D D (deltaEdge r s) := by
  unfold deltaEdge
  split_ifs with h
  · exact one_rep k T hT (fun a b => by rw [hD]; simp [h])
  · refine ⟨MOk.zero _, fun a b => ?_⟩
    rw [zero_mat, hD]
    simp [h]

/-! ### The result -/

theorem takeWhile_lt (l : List Ctrl) (t : ℕ) :
    ∀ c ∈ l.takeWhile (fun c => decide (c.1 < t)), c.1 < t := by
  induction l with
  | nil => intro c hc; simp at hc
  | cons d l ih =>
    intro c hc
    by_cases hd : d.1 < t
    · rw [List.takeWhile_cons_of_pos (by simpa using hd)] at hc
      rcases List.mem_cons.1 hc with rfl | hc
      · exact hd
      · exact ih c hc
    · rw [List.takeWhile_cons_of_neg (by simpa using hd)] at hc
      simp at hc

theorem dropWhile_ge (l : List Ctrl) (t : ℕ) (h : l.Pairwise (fun c d => c.1 < d.1)) :
    ∀ c ∈ l.dropWhile (fun c => decide (c.1 < t)), t ≤ c.1 := by
  induction l with
  | nil => intro c hc; simp at hc
  | cons d l ih =>
    intro c hc
    have hp := List.pairwise_cons.1 h
    by_cases hd : d.1 < t
    · rw [List.dropWhile_cons_of_pos (by simpa using hd)] at hc
      exact ih hp.2 c hc
    · rw [List.dropWhile_cons_of_neg (by simpa using hd)] at hc
      rcases List.mem_cons.1 hc with rfl | hc
      · omega
      · have := hp.1 c hc; omega

theorem satL_split (l : List Ctrl) (p : Ctrl → Bool) (a : Bits) :
    SatL l a ↔ SatL (l.takeWhile p) a ∧ SatL (l.dropWhile p) a := by
  have e := List.takeWhile_append_dropWhile (p := p) (l := l)
  constructor
  · intro h
    constructor
    · intro c hc; exact h c (by rw [← e]; exact List.mem_append_left _ hc)
    · intro c hc; exact h c (by rw [← e]; exact List.mem_append_right _ hc)
  · rintro ⟨h1, h2⟩ c hc
    rw [← e] at hc
    rcases List.mem_append.1 hc with h | h
    · exact h1 c h
    · exact h2 c h

theorem pairwise_split {l : List Ctrl} (h : l.Pairwise (fun c d => c.1 < d.1)) (p : Ctrl → Bool) :
    (l.takeWhile p).Pairwise (fun c d => c.1 < d.1) ∧ (l.dropWhile p).Pairwise (fun c d => c.1 < d.1) :=
  ⟨h.sublist (List.takeWhile_sublist p), h.sublist (List.dropWhile_sublist p)⟩

theorem range_ok {l : List Ctrl} {n : ℕ} (hn : ∀ c ∈ l, c.1 < n) :
    ¬ (l.any fun c => decide (c.1 > n - 1)) = true := by
  simp only [List.any_eq_true, decide_eq_true_eq, not_exists, not_and, not_lt]
  intro c hc; have := hn c hc; omega

theorem skipId_weight (r : MEdge) : (skipId r).w = r.w := by
  unfold skipId
  cases r.p with
  | term => rfl
  | node v w c => simp only; split_ifs <;> rfl

theorem makeM_zero (v : ℕ) (e : RC → MEdge) (h : (makeM v e).w = 0) : (makeM v e).p = .term := by
  unfold makeM at h ⊢
  rw [mNormalize_eq] at h ⊢
  split_ifs at h ⊢ with h0
  · rfl
  · exfalso
    apply h0
    simpa [skipId_weight] using h

theorem gateAbove_zero (cs : List Ctrl) (e : MEdge) (he : e.w = 0 → e.p = .term)
    (h : (gateAbove cs e).w = 0) : (gateAbove cs e).p = .term := by
  induction cs generalizing e with
  | nil => exact he h
  | cons c cs ih => exact ih _ (makeM_zero _ _) h

theorem gateAbove_gen (l : List Ctrl) {t n : ℕ} {T : Set ℕ} {S : Bits → Prop}
    {M D : Bits → Bits → ℂ} {em : RC → MEdge}
    (he : Rep (t + 1) T S M D (makeM t em))
    (hD : ∀ a b, D a b = if ∀ q ∈ T, a q = b q then 1 else 0) (hT : ∀ q ∈ T, q < t + 1)
    (hs : l.Pairwise (fun c d => c.1 < d.1)) (hn : ∀ c ∈ l, c.1 < n) (hl : ∀ c ∈ l, c.1 ≠ t)
    (ht : t < n) :
    Rep n T (fun a => SatL (l.dropWhile (fun c => decide (c.1 < t))) a ∧ S a) M D
        (gateAbove (l.dropWhile (fun c => decide (c.1 < t))) (makeM t em)) ∧
      MECan n (gateAbove (l.dropWhile (fun c => decide (c.1 < t))) (makeM t em)) := by
  have h := gateAbove_rep (l.dropWhile (fun c => decide (c.1 < t))) (t := n) he
    (fun k' hk' => one_rep k' T (fun q hq => by have := hT q hq; omega) hD)
    (pairwise_split hs _).2
    (fun c hc => by
      have h1 := dropWhile_ge l t hs c hc
      have hmem := (List.dropWhile_sublist (fun c : Ctrl => decide (c.1 < t))).subset hc
      have h2 := hl c hmem
      exact ⟨by omega, hn c hmem⟩)
    (by omega) hT
  exact ⟨h, gateAbove_zero _ _ (makeM_zero _ _), h.ok⟩

theorem makeGateDD_rep (n : ℕ) (M : Mat1) (l : List Ctrl) (t : ℕ)
    (hs : l.Pairwise (fun c d => c.1 < d.1)) (hn : ∀ c ∈ l, c.1 < n) (ht : t < n)
    (hl : ∀ c ∈ l, c.1 ≠ t) :
    ∃ e, makeGateDD n M l t = some e ∧ MECan n e ∧
      Rep n {t} (SatL l) (fun a b => M (a t) (b t)) (fun a b => if a t = b t then 1 else 0) e := by
  have hr : ¬ ((l.any fun c => decide (c.1 > n - 1)) = true ∨ t > n - 1) := by
    rw [not_or]; exact ⟨range_ok hn, by omega⟩
  have hbelow := fun r s => gateBelow_rep (l.takeWhile (fun c => decide (c.1 < t))) (t := t)
    (M := fun r s _ _ => M r s) (D := fun r s _ _ => if r = s then (1 : ℂ) else 0)
    (fun r s => terminal_rep 0 (M r s) (fun _ => True) (fun _ => trivial) _)
    (fun r s k' _ => delta_rep r s k' ∅ (by simp) (by intro a b; simp))
    (pairwise_split hs _).1 (fun c hc => ⟨by omega, takeWhile_lt l t c hc⟩) (by omega) (by simp) r s
  have htar := Rep.target (fun i : RC => hbelow i.1 i.2)
  rw [insert_empty_eq] at htar
  obtain ⟨habove, hcan⟩ := gateAbove_gen l htar (by intro a b; simp) (by simp) hs hn hl ht
  have hfin := habove.congr (S' := SatL l) (fun a => by
    rw [satL_split l (fun c => decide (c.1 < t))]; tauto) (fun _ _ => rfl) (fun _ _ => rfl)
  by_cases h0 : l = []
  · refine ⟨makeM t (fun b => .terminal (M b.1 b.2)), by unfold makeGateDD; rw [if_neg hr, if_pos h0],
      (makeM_can (n := t) (e := fun b => .terminal (M b.1 b.2)) (fun _ _ => trivial)).up (by omega), ?_⟩
    subst h0
    exact hfin
  · exact ⟨_, by unfold makeGateDD; rw [if_neg hr, if_neg h0], hcan, hfin⟩

theorem makeTwoQubitGateDD_rep (n : ℕ) (M : Mat2) (l : List Ctrl) (t0 t1 : ℕ)
    (hs : l.Pairwise (fun c d => c.1 < d.1)) (hn : ∀ c ∈ l, c.1 < n) (ht0 : t0 < n) (ht1 : t1 < n)
    (h01 : t0 ≠ t1) (hl0 : ∀ c ∈ l, c.1 ≠ t0) (hl1 : ∀ c ∈ l, c.1 ≠ t1) :
    ∃ e, makeTwoQubitGateDD n M l t0 t1 = some e ∧ MECan n e ∧
      Rep n {t0, t1} (SatL l) (fun a b => M (a t0, a t1) (b t0, b t1))
        (fun a b => if a t0 = b t0 ∧ a t1 = b t1 then 1 else 0) e := by
  have hr : ¬ ((l.any fun c => decide (c.1 > n - 1)) = true ∨ t0 > n - 1 ∨ t1 > n - 1) := by
    rw [not_or, not_or]; exact ⟨range_ok hn, by omega, by omega⟩
  set sm := min t0 t1 with hsm
  set lg := max t0 t1 with hlg
  have hlt : sm < lg := by omega
  have hbelow := fun r s => gateBelow_rep (l.takeWhile (fun c => decide (c.1 < sm))) (t := sm)
    (M := fun r s _ _ => M r s) (D := fun r s _ _ => if r = s then (1 : ℂ) else 0)
    (fun r s => terminal_rep 0 (M r s) (fun _ => True) (fun _ => trivial) _)
    (fun r s k' _ => delta_rep r s k' ∅ (by simp) (by intro a b; simp))
    (pairwise_split hs _).1 (fun c hc => ⟨by omega, takeWhile_lt l sm c hc⟩) (by omega) (by simp) r s
  -- the smaller target
  let pr : Bool → Bool → RC := fun row i => if t0 > t1 then (row, i) else (i, row)
  have hpr : ∀ row i col j, pr row i = pr col j ↔ i = j ∧ row = col := by
    intro row i col j
    simp only [pr]
    split_ifs <;> simp [Prod.ext_iff, and_comm]
  have hsmall := fun row col : Bool => (Rep.target (k := sm) (fun i : RC => hbelow (pr row i.1) (pr col i.2))).congr
    (S' := fun a => SatL (l.takeWhile (fun c => decide (c.1 < sm))) a)
    (M' := fun a b => M (pr row (a sm)) (pr col (b sm)))
    (D' := fun a b => if a sm = b sm ∧ row = col then (1 : ℂ) else 0)
    (fun a => by simp) (fun a b => rfl)
    (fun a b => by simp only [hpr])
  -- controls between the targets
  have hbetween := fun r s => gateBelow_rep
    ((l.dropWhile (fun c => decide (c.1 < sm))).takeWhile (fun c => decide (c.1 < lg))) (t := lg)
    (M := fun row col a b => M (pr row (a sm)) (pr col (b sm)))
    (D := fun row col a b => if a sm = b sm ∧ row = col then (1 : ℂ) else 0) hsmall
    (fun r s k' hk' => delta_rep r s k' _ (by simp; omega) (by intro a b; simp))
    (pairwise_split (pairwise_split hs _).2 _).1
    (fun c hc => by
      have h0 := (List.takeWhile_sublist _).subset hc
      have h1 := dropWhile_ge l sm hs c h0
      have hmem := (List.dropWhile_sublist _).subset h0
      have h2 := hl0 c hmem
      have h3 := hl1 c hmem
      have h4 := takeWhile_lt _ lg c hc
      exact ⟨by omega, h4⟩) (by omega) (by simp) r s
  have hlarge := Rep.target (fun i : RC => hbetween i.1 i.2)
  obtain ⟨habove, hcan⟩ := gateAbove_gen (l.dropWhile (fun c => decide (c.1 < sm))) hlarge
    (by intro a b; simp [and_comm]) (by simp; omega) (pairwise_split hs _).2
    (fun c hc => hn c ((List.dropWhile_sublist _).subset hc))
    (fun c hc => by
      have hmem := (List.dropWhile_sublist _).subset hc
      have h2 := hl0 c hmem
      have h3 := hl1 c hmem
      omega) (by omega)
  have hT : (insert lg (insert sm ∅) : Set ℕ) = {t0, t1} := by
    ext q; simp only [Set.mem_insert_iff, Set.mem_empty_iff_false, or_false, Set.mem_singleton_iff]
    omega
  rw [hT] at habove
  refine ⟨_, ?_, hcan, habove.congr ?_ ?_ ?_⟩
  · unfold makeTwoQubitGateDD
    rw [if_neg hr]
    by_cases h : t0 > t1
    · simp only [pr, if_pos h]; rfl
    · simp only [pr, if_neg h]; rfl
  · intro a
    rw [satL_split l (fun c => decide (c.1 < sm)),
      satL_split (l.dropWhile (fun c => decide (c.1 < sm))) (fun c => decide (c.1 < lg))]
    tauto
  · intro a b
    simp only [pr]
    split_ifs with h
    · rw [show lg = t0 by omega, show sm = t1 by omega]
    · rw [show lg = t1 by omega, show sm = t0 by omega]
  · intro a b
    by_cases h : t0 > t1
    · rw [show lg = t0 by omega, show sm = t1 by omega]; simp only [and_comm]
    · rw [show lg = t1 by omega, show sm = t0 by omega]

/-! ### Action on states -/

theorem sumB_agree1 (n t : ℕ) (ht : t < n) (a : Bits) (g : Bits → ℂ) :
    sumB n (fun z => if AgreeOff {t} n a z then g z else 0) a = ∑ b : Bool, g (update a t b) := by
  have e : ∀ z : Bits, (if AgreeOff {t} n a z then g z else 0)
      = (if ∀ q < n, update a t false q = z q then g z else 0)
        + (if ∀ q < n, update a t true q = z q then g z else 0) := by
    intro z
    have h : ∀ v, (∀ q < n, update a t v q = z q) ↔ z t = v ∧ AgreeOff {t} n a z := by
      intro v
      constructor
      · intro h
        refine ⟨by rw [← h t ht, Function.update_self], fun q hq hqt => ?_⟩
        rw [← h q hq, Function.update_of_ne (by simpa using hqt)]
      · rintro ⟨h1, h2⟩ q hq
        by_cases hqt : q = t
        · subst hqt; rw [Function.update_self, h1]
        · rw [Function.update_of_ne hqt]; exact h2 q hq (by simpa using hqt)
    simp only [h]
    cases z t <;> simp
  have hlow : ∀ v, low n (update a t v) a = update a t v := by
    intro v; funext q
    unfold low
    split_ifs with h
    · rfl
    · rw [Function.update_of_ne (by omega)]
  simp only [e]
  rw [sumB_add, sumB_pick, sumB_pick, hlow, hlow, Fintype.sum_bool, add_comm]

theorem sumB_agree2 (n t0 t1 : ℕ) (ht0 : t0 < n) (ht1 : t1 < n) (h01 : t0 ≠ t1) (a : Bits)
    (g : Bits → ℂ) :
    sumB n (fun z => if AgreeOff {t0, t1} n a z then g z else 0) a
      = ∑ b : Bool × Bool, g (update (update a t0 b.1) t1 b.2) := by
  have e : ∀ z : Bits, (if AgreeOff {t0, t1} n a z then g z else 0)
      = (if AgreeOff {t1} n (update a t0 false) z then g z else 0)
        + (if AgreeOff {t1} n (update a t0 true) z then g z else 0) := by
    intro z
    have h : ∀ v, AgreeOff {t1} n (update a t0 v) z ↔ z t0 = v ∧ AgreeOff {t0, t1} n a z := by
      intro v
      constructor
      · intro h
        refine ⟨by rw [← h t0 ht0 (by simpa using h01), Function.update_self], fun q hq hqt => ?_⟩
        simp only [Set.mem_insert_iff, Set.mem_singleton_iff, not_or] at hqt
        rw [← h q hq (by simpa using hqt.2), Function.update_of_ne hqt.1]
      · rintro ⟨h1, h2⟩ q hq hqt
        by_cases hq0 : q = t0
        · subst hq0; rw [Function.update_self, h1]
        · rw [Function.update_of_ne hq0]
          exact h2 q hq (by simp only [Set.mem_insert_iff, not_or]; exact ⟨hq0, hqt⟩)
    simp only [h]
    cases z t0 <;> simp
  have hb : ∀ v, sumB n (fun z => if AgreeOff {t1} n (update a t0 v) z then g z else 0) a
      = sumB n (fun z => if AgreeOff {t1} n (update a t0 v) z then g z else 0) (update a t0 v) := by
    intro v
    rw [sumB_eq, sumB_eq]
    refine Finset.sum_congr rfl fun t _ => ?_
    have : fill t a = fill t (update a t0 v) := by
      funext q
      unfold fill
      split_ifs with h
      · rfl
      · rw [Function.update_of_ne (by omega)]
    rw [this]
  simp only [e]
  rw [sumB_add, hb, hb, sumB_agree1 n t1 ht1, sumB_agree1 n t1 ht1, Fintype.sum_prod_type,
    Fintype.sum_bool (f := fun x => ∑ y : Bool, g (update (update a t0 (x, y).1) t1 (x, y).2)),
    add_comm]

end MQT.DD
