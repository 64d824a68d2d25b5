/-
`CircuitOptimizer::elidePermutations`: remove uncontrolled SWAPs by renaming the qubits of
everything after them.

Sources: `src/circuit_optimizer/CircuitOptimizer.cpp` 1575-1641; `src/ir/operations/Operation.cpp`
189-192 and `NonUnitaryOperation.cpp` 232-234 (`apply`); `src/ir/Permutation.cpp` (`apply`);
`src/ir/operations/CompoundOperation.cpp` 267-290 (`isConvertibleToSingleOperation`,
`collapseToSingleOperation`).

A permutation is a partial function on qubits.  `none` = `std::out_of_range` thrown by `.at`, or a
violated `assert`.  Simplification: `Permutation::apply` of an *empty* map is the identity; a
circuit with an empty layout has no qubits, so there is nothing to rename.
-/
import Verif.Opt.Simple

set_option autoImplicit false
set_option linter.unusedSectionVars false

namespace MQT.Opt

open MQT.IR
open Function (update)

variable {P : Type}

/-- `std::map<Qubit, Qubit>`. -/
abbrev PMap := ℕ → Option ℕ

/-- `Operation::apply(permutation)` with virtual `getTargets()`/`getControls()`: a classically
controlled operation forwards to what it wraps, a compound operation has none. -/
def applyLine (m : PMap) : Op P → Option (Op P)
  | .std o => if ∀ q ∈ o.used, (m q).isSome then some (.std (o.relabel fun q => (m q).getD 0)) else none
  | .compound ops b => some (.compound ops b)
  | .measure qs cs =>
    if ∀ q ∈ qs, (m q).isSome then some (.measure (qs.map fun q => (m q).getD 0) cs) else none
  | .reset qs => if ∀ q ∈ qs, (m q).isSome then some (.reset (qs.map fun q => (m q).getD 0)) else none
  | .classic p e => (applyLine m e).map (.classic p)

mutual
/-- `isConvertibleToSingleOperation` / `collapseToSingleOperation`: the one operation a compound
operation consists of. -/
def single? : Op P → Option (Op P)
  | .compound ops _ => singleL? ops
  | .std o => some (.std o)
  | .measure qs cs => some (.measure qs cs)
  | .reset qs => some (.reset qs)
  | .classic p e => some (.classic p e)
def singleL? : List (Op P) → Option (Op P)
  | [e] => single? e
  | _ => none
end

/-- What remains of a compound operation after its parts have been processed (1585-1593). -/
def recompose (ops : List (Op P)) (b : Bool) : List (Op P) :=
  match ops with
  | [] => []
  | e :: l => match singleL? (e :: l) with
    | some s => [s]
    | none => [.compound (e :: l) b]

/-- `std::swap(permutation[a], permutation[b])`. -/
def PMap.swap (m : PMap) (a b : ℕ) : PMap := update (update m a (m b)) b (m a)

mutual
/-- One operation (1580-1617): the new permutation and what replaces the operation. -/
def elideOp (m : PMap) : Op P → Option (PMap × List (Op P))
  | .compound ops b => (elideOps m ops).map fun r => (r.1, recompose r.2 b)
  | .std o =>
    if o.type = .swap ∧ o.controls.card = 0 then
      match o.targets with
      | [a, b] => if (m a).isSome ∧ (m b).isSome then some (m.swap a b, []) else none
      | _ => none
    else (applyLine m (.std o)).map fun e => (m, [e])
  | .measure qs cs => (applyLine m (.measure qs cs)).map fun e => (m, [e])
  | .reset qs => (applyLine m (.reset qs)).map fun e => (m, [e])
  | .classic p e => (applyLine m (.classic p e)).map fun e => (m, [e])
def elideOps (m : PMap) : List (Op P) → Option (PMap × List (Op P))
  | [] => some (m, [])
  | e :: l => match elideOp m e with
    | some (m', r) => match elideOps m' l with
      | some (m'', r') => some (m'', r ++ r')
      | none => none
    | none => none
end

/-- A circuit with its layouts; a layout is the list of its (physical, logical) pairs. -/
structure LQC (P : Type) where
  ops : List (Op P)
  initial : List (ℕ × ℕ)
  output : List (ℕ × ℕ)

/-- Look up in a layout. -/
def lay (l : List (ℕ × ℕ)) : PMap := fun q => (l.find? fun p => p.1 = q).map Prod.snd

/-- `elidePermutations` (1622-1641). -/
def elidePermutations (qc : LQC P) : Option (LQC P) :=
  if qc.ops.isEmpty then some qc else
  match elideOps (lay qc.initial) qc.ops with
  | none => none
  | some (m, ops') =>
    if ∀ p ∈ qc.output, (m p.1).isSome then
      some { ops := ops'
             initial := qc.initial.map fun p => (p.2, p.2)
             output := qc.output.map fun p => ((m p.1).getD 0, p.2) }
    else none

/-! ### Meaning of a renaming -/

/-- The same state with qubit `q` renamed to `σ q`. -/
def ren (σ : Equiv.Perm ℕ) (ψ : State) : State := fun x => ψ (x ∘ σ)

theorem ren_symm (σ : Equiv.Perm ℕ) (ψ : State) : ren σ (ren σ.symm ψ) = ψ := by
  funext x
  show ψ _ = ψ x
  congr 1
  funext q
  simp

theorem ren_trans (σ τ : Equiv.Perm ℕ) (ψ : State) : ren τ (ren σ ψ) = ren (σ.trans τ) ψ := rfl

theorem ren_app1 (σ : Equiv.Perm ℕ) (M : Mat1) (t : ℕ) (ψ : State) :
    ren σ (app1 M t ψ) = app1 M (σ t) (ren σ ψ) := by
  funext x
  simp only [ren, app1, Function.comp]
  refine Finset.sum_congr rfl fun b _ => ?_
  congr 2
  funext q
  by_cases h : q = t
  · subst h; simp
  · rw [Function.update_of_ne h]
    exact (Function.update_of_ne (fun e => h (σ.injective e)) _ _).symm

theorem ren_app2 (σ : Equiv.Perm ℕ) (M : Mat2) (s t : ℕ) (ψ : State) :
    ren σ (app2 M s t ψ) = app2 M (σ s) (σ t) (ren σ ψ) := by
  funext x
  simp only [ren, app2, Function.comp]
  refine Finset.sum_congr rfl fun b _ => ?_
  congr 2
  funext q
  by_cases h : q = t
  · subst h; simp
  · rw [Function.update_of_ne h]
    show _ = update (update x (σ s) b.1) (σ t) b.2 (σ q)
    rw [Function.update_of_ne (fun e => h (σ.injective e))]
    by_cases h' : q = s
    · subst h'; simp
    · rw [Function.update_of_ne h']
      exact (Function.update_of_ne (fun e => h' (σ.injective e)) _ _).symm

theorem sat_ren (σ : Equiv.Perm ℕ) (cs : Finset Ctrl) (x : Bits) :
    Sat (cs.image fun c => (σ c.1, c.2)) x ↔ Sat cs (x ∘ σ) := by
  simp only [Sat, Finset.mem_image, forall_exists_index, and_imp]
  constructor
  · intro h c hc; exact h _ c hc rfl
  · rintro h _ c hc rfl; exact h c hc

theorem ren_ctl (σ : Equiv.Perm ℕ) (cs : Finset Ctrl) (A B : State → State)
    (h : ∀ ψ, ren σ (A ψ) = B (ren σ ψ)) (ψ : State) :
    ren σ (ctl cs A ψ) = ctl (cs.image fun c => (σ c.1, c.2)) B (ren σ ψ) := by
  funext x
  simp only [ctl, sat_ren]
  have := congrFun (h ψ) x
  by_cases hs : Sat cs (x ∘ σ)
  · rw [if_pos hs, ← this]
    simp only [ren]
    rw [ctl, if_pos hs]
  · rw [if_neg hs]
    simp only [ren]
    rw [ctl, if_neg hs]

theorem relabel_denote (σ : Equiv.Perm ℕ) {o : StdOp ℝ} {f : State → State} (hf : o.denote = some f) :
    ∃ g, (o.relabel σ).denote = some g ∧ ∀ ψ, ren σ (f ψ) = g (ren σ ψ) := by
  rcases StdOp.denote_cases hf with ⟨hb, rfl⟩ | ⟨hg, θ, hp, rfl⟩ | ⟨hs, q, M, e1, e2, rfl⟩ |
    ⟨h2, q0, q1, M, e1, e2, rfl⟩
  · exact ⟨_, StdOp.denote_barrier (o := o.relabel σ) hb, fun ψ => rfl⟩
  · refine ⟨ctl (o.relabel σ).controls (phase ⟨Real.cos θ, Real.sin θ⟩), ?_, ?_⟩
    · rw [StdOp.denote_gphase (o := o.relabel σ) hg]
      show (o.params[0]?).map _ = _
      rw [hp]; rfl
    · exact ren_ctl σ _ _ _ fun ψ => rfl
  · refine ⟨_, StdOp.denote_single_of (o := o.relabel σ) (q := σ q) (M := M) hs
      (by simp [StdOp.relabel, e1]) e2, ?_⟩
    exact ren_ctl σ _ _ _ fun ψ => ren_app1 σ M q ψ
  · refine ⟨_, StdOp.denote_two_of (o := o.relabel σ) (q0 := σ q0) (q1 := σ q1) (M := M) h2
      (by simp [StdOp.relabel, e1]) e2, ?_⟩
    exact ren_ctl σ _ _ _ fun ψ => ren_app2 σ M q0 q1 ψ

/-- The bijection `σ` extends the partial map `m`. -/
def Ext (m : PMap) (σ : Equiv.Perm ℕ) : Prop := ∀ q r, m q = some r → σ q = r

theorem Ext.getD {m : PMap} {σ : Equiv.Perm ℕ} (h : Ext m σ) {q : ℕ} (hq : (m q).isSome) :
    (m q).getD 0 = σ q := by
  obtain ⟨r, hr⟩ := Option.isSome_iff_exists.1 hq
  rw [hr, h q r hr]; rfl

theorem relabel_congr {f g : ℕ → ℕ} {o : StdOp P} (h : ∀ q ∈ o.used, f q = g q) :
    o.relabel f = o.relabel g := by
  obtain ⟨ty, ps, cs, ts⟩ := o
  have h1 : ts.map f = ts.map g :=
    List.map_congr_left fun q hq => h q (StdOp.mem_used.2 (Or.inl hq))
  have h2 : cs.image (fun c => (f c.1, c.2)) = cs.image (fun c => (g c.1, c.2)) :=
    Finset.image_congr fun c hc => by
      show (f c.1, c.2) = (g c.1, c.2)
      rw [h c.1 (StdOp.mem_used.2 (Or.inr (Finset.mem_image_of_mem _ hc)))]
  simp only [StdOp.relabel, h1, h2]

/-- Operations that `applyLine` renames properly: everything except a classically controlled compound
operation. -/
theorem applyLine_correct {m : PMap} {σ : Equiv.Perm ℕ} (hm : Ext m σ) (e : Op ℝ) (he : e.bare = true)
    (hv : e.Valid) {e' : Op ℝ} (ha : applyLine m e = some e') (c : Cfg) :
    exec e' (c.mapSt (ren σ)) = (exec e c).map (Cfg.mapSt (ren σ)) := by
  match e with
  | .std o =>
    rw [applyLine] at ha
    split_ifs at ha with hu
    injection ha with ha
    subst ha
    rw [relabel_congr fun q hq => hm.getD (hu q hq)]
    rw [Op.Valid] at hv
    obtain ⟨-, f, hf⟩ := hv
    obtain ⟨g, hg, hfg⟩ := relabel_denote σ hf
    rw [exec, exec, hf, hg]
    simp only [Option.map_some, Cfg.mapSt, hfg]
  | .compound ops b => cases he
  | .measure qs cs =>
    rw [applyLine] at ha
    split_ifs at ha with hu
    injection ha with ha
    subst ha
    rw [exec, exec, Option.map_some, List.map_congr_left fun q hq => hm.getD (hu q hq)]
    congr 1
    clear hv he hu
    induction qs generalizing c cs with
    | nil => rfl
    | cons q qs ih =>
      cases cs with
      | nil => rfl
      | cons b cs =>
        simp only [List.map_cons, List.zip_cons_cons, List.foldl_cons]
        rw [← ih (measure1 q b c) cs]
        congr 1
        simp only [measure1, Cfg.mapSt, ren_app1]
  | .reset qs =>
    rw [applyLine] at ha
    split_ifs at ha with hu
    injection ha with ha
    subst ha
    rw [exec, exec, Option.map_some, List.map_congr_left fun q hq => hm.getD (hu q hq)]
    congr 1
    clear hv he hu
    induction qs generalizing c with
    | nil => rfl
    | cons q qs ih =>
      simp only [List.map_cons, List.foldl_cons]
      rw [← ih (reset1 q c)]
      congr 1
      simp only [reset1, Cfg.mapSt]
      by_cases ho : c.orc 0 = true
      · simp only [ho, if_true, ren_app1]
      · simp only [ho, if_false, ren_app1, Bool.false_eq_true]
  | .classic p e =>
    rw [applyLine, Option.map_eq_some_iff] at ha
    obtain ⟨e1, h1, rfl⟩ := ha
    rw [exec, exec]
    have : (c.mapSt (ren σ)).mem = c.mem := rfl
    rw [this]
    split_ifs
    · rw [Op.bare] at he
      rw [Op.Valid] at hv
      exact applyLine_correct hm e he hv h1 c
    · rfl

mutual
theorem single_exec (e : Op ℝ) {s : Op ℝ} (h : single? e = some s) : exec s = exec e := by
  match e with
  | .compound ops b =>
    rw [single?] at h
    rw [run_compound]; exact singleL_run ops h
  | .std o => rw [single?] at h; injection h with h; rw [h]
  | .measure _ _ => rw [single?] at h; injection h with h; rw [h]
  | .reset _ => rw [single?] at h; injection h with h; rw [h]
  | .classic _ _ => rw [single?] at h; injection h with h; rw [h]
theorem singleL_run (l : List (Op ℝ)) {s : Op ℝ} (h : singleL? l = some s) : exec s = run l := by
  match l with
  | [] => simp [singleL?] at h
  | [e] => rw [singleL?] at h; rw [run_singleton]; exact single_exec e h
  | _ :: _ :: _ => simp [singleL?] at h
end

theorem run_recompose (l : List (Op ℝ)) (b : Bool) : run (recompose l b) = run l := by
  unfold recompose
  split
  · rfl
  · split
    · rename_i s hs
      rw [run_singleton, singleL_run _ hs]
    · rw [run_singleton, run_compound]

theorem Ext.swap {m : PMap} {σ : Equiv.Perm ℕ} (h : Ext m σ) {a b : ℕ}
    (ha : (m a).isSome) (hb : (m b).isSome) : Ext (m.swap a b) ((Equiv.swap a b).trans σ) := by
  intro q r hq
  rw [Equiv.trans_apply]
  unfold PMap.swap at hq
  by_cases h1 : q = b
  · subst h1
    rw [Function.update_self] at hq
    rw [Equiv.swap_apply_right]; exact h a r hq
  · rw [Function.update_of_ne h1] at hq
    by_cases h2 : q = a
    · subst h2
      rw [Function.update_self] at hq
      rw [Equiv.swap_apply_left]; exact h b r hq
    · rw [Function.update_of_ne h2] at hq
      rw [Equiv.swap_apply_of_ne_of_ne h2 h1]; exact h q r hq

theorem ren_swap (σ : Equiv.Perm ℕ) (a b : ℕ) (ψ : State) :
    ren ((Equiv.swap a b).trans σ) (pull (swapMap a b) ψ) = ren σ ψ := by
  funext x
  show ψ (swapMap a b (x ∘ _)) = ψ (x ∘ σ)
  congr 1
  funext q
  simp only [swapMap, Function.comp, Equiv.trans_apply]
  by_cases h1 : q = b
  · subst h1; simp
  · rw [Function.update_of_ne h1]
    by_cases h2 : q = a
    · subst h2; simp
    · rw [Function.update_of_ne h2]
      show x (σ (Equiv.swap a b q)) = x (σ q)
      rw [Equiv.swap_apply_of_ne_of_ne h2 h1]

mutual
theorem elideOp_correct {m : PMap} {σ : Equiv.Perm ℕ} (hm : Ext m σ) (e : Op ℝ)
    (hp : e.plain = true) (hv : e.Valid) {m' : PMap} {r : List (Op ℝ)}
    (h : elideOp m e = some (m', r)) :
    ∃ σ', Ext m' σ' ∧ ∀ c, run r (c.mapSt (ren σ)) = (exec e c).map (Cfg.mapSt (ren σ')) := by
  have line : ∀ e : Op ℝ, e.bare = true → e.Valid →
      (applyLine m e).map (fun e => (m, [e])) = some (m', r) →
      ∃ σ', Ext m' σ' ∧ ∀ c, run r (c.mapSt (ren σ)) = (exec e c).map (Cfg.mapSt (ren σ')) := by
    intro e hb hv h
    rw [Option.map_eq_some_iff] at h
    obtain ⟨e', h1, h2⟩ := h
    injection h2 with h2 h3
    subst h2 h3
    exact ⟨σ, hm, fun c => by rw [run_singleton]; exact applyLine_correct hm e hb hv h1 c⟩
  match e with
  | .compound ops b =>
    rw [elideOp, Option.map_eq_some_iff] at h
    obtain ⟨⟨m1, r1⟩, h1, h2⟩ := h
    injection h2 with h2 h3
    subst h2 h3
    rw [Op.plain] at hp
    rw [Op.Valid] at hv
    obtain ⟨σ', e1, e2⟩ := elideOps_correct hm ops hp hv h1
    exact ⟨σ', e1, fun c => by rw [run_recompose, run_compound]; exact e2 c⟩
  | .std o =>
    rw [elideOp] at h
    by_cases hs : o.type = .swap ∧ o.controls.card = 0
    · rw [if_pos hs] at h
      split at h
      · rename_i a b hab
        split_ifs at h with hd
        injection h with h
        injection h with h2 h3
        subst h2 h3
        refine ⟨_, hm.swap hd.1 hd.2, fun c => ?_⟩
        rw [exec_pull (swap_denote hs.1 (Finset.card_eq_zero.1 hs.2) hab), run_nil]
        simp only [Option.map_some, Cfg.mapSt, ren_swap]
      · cases h
    · rw [if_neg hs] at h
      exact line _ rfl hv h
  | .measure qs cs => rw [elideOp] at h; exact line _ rfl hv h
  | .reset qs => rw [elideOp] at h; exact line _ rfl hv h
  | .classic p e =>
    rw [elideOp] at h
    exact line _ (by rw [Op.plain] at hp; rw [Op.bare]; exact hp) hv h
theorem elideOps_correct {m : PMap} {σ : Equiv.Perm ℕ} (hm : Ext m σ) (l : List (Op ℝ))
    (hp : Op.plainL l = true) (hv : Op.ValidL l) {m' : PMap} {r : List (Op ℝ)}
    (h : elideOps m l = some (m', r)) :
    ∃ σ', Ext m' σ' ∧ ∀ c, run r (c.mapSt (ren σ)) = (run l c).map (Cfg.mapSt (ren σ')) := by
  match l with
  | [] =>
    rw [elideOps] at h
    injection h with h
    injection h with h2 h3
    subst h2 h3
    exact ⟨σ, hm, fun c => by rw [run_nil, run_nil]; rfl⟩
  | e :: l =>
    rw [elideOps] at h
    split at h
    · rename_i m1 r1 h1
      split at h
      · rename_i m2 r2 h2
        injection h with h
        injection h with h3 h4
        subst h3 h4
        rw [Op.plainL, Bool.and_eq_true] at hp
        rw [Op.ValidL] at hv
        obtain ⟨σ1, x1, y1⟩ := elideOp_correct hm e hp.1 hv.1 h1
        obtain ⟨σ2, x2, y2⟩ := elideOps_correct x1 l hp.2 hv.2 h2
        refine ⟨σ2, x2, fun c => ?_⟩
        rw [run_append, y1, run_cons]
        cases exec e c with
        | none => rfl
        | some d => exact y2 d
      · cases h
    · cases h
end

/-! ### No SWAP remains, and nothing fails on good input -/

mutual
/-- No uncontrolled SWAP (outside classically controlled operations). -/
def noSwap : Op P → Bool
  | .std o => !(decide (o.type = .swap) && decide (o.controls.card = 0))
  | .compound ops _ => noSwapL ops
  | .measure _ _ => true
  | .reset _ => true
  | .classic _ _ => true
def noSwapL : List (Op P) → Bool
  | [] => true
  | e :: l => noSwap e && noSwapL l
end

theorem noSwapL_append (l l' : List (Op P)) : noSwapL (l ++ l') = (noSwapL l && noSwapL l') := by
  induction l with
  | nil => rw [List.nil_append, noSwapL, Bool.true_and]
  | cons e l ih => rw [List.cons_append, noSwapL, noSwapL, ih, Bool.and_assoc]

mutual
theorem single_noSwap (e : Op P) {s : Op P} (h : single? e = some s) (hn : noSwap e = true) :
    noSwap s = true := by
  match e with
  | .compound ops b =>
    rw [single?] at h
    rw [noSwap] at hn
    exact singleL_noSwap ops h hn
  | .std o => rw [single?] at h; injection h with h; rw [← h]; exact hn
  | .measure _ _ => rw [single?] at h; injection h with h; rw [← h]; exact hn
  | .reset _ => rw [single?] at h; injection h with h; rw [← h]; exact hn
  | .classic _ _ => rw [single?] at h; injection h with h; rw [← h]; exact hn
theorem singleL_noSwap (l : List (Op P)) {s : Op P} (h : singleL? l = some s)
    (hn : noSwapL l = true) : noSwap s = true := by
  match l with
  | [] => simp [singleL?] at h
  | [e] =>
    rw [singleL?] at h
    rw [noSwapL, Bool.and_eq_true] at hn
    exact single_noSwap e h hn.1
  | _ :: _ :: _ => simp [singleL?] at h
end

theorem recompose_noSwap {l : List (Op P)} {b : Bool} (h : noSwapL l = true) :
    noSwapL (recompose l b) = true := by
  unfold recompose
  split
  · rfl
  · split
    · rename_i s hs
      rw [noSwapL, noSwapL, singleL_noSwap _ hs h]; rfl
    · rw [noSwapL, noSwapL, noSwap, h]; rfl

theorem card_relabel_zero {f : ℕ → ℕ} {o : StdOp P} :
    (o.relabel f).controls.card = 0 ↔ o.controls.card = 0 := by
  simp [StdOp.relabel]

mutual
theorem elideOp_noSwap (m : PMap) (e : Op P) {m' : PMap} {r : List (Op P)}
    (h : elideOp m e = some (m', r)) : noSwapL r = true := by
  match e with
  | .compound ops b =>
    rw [elideOp, Option.map_eq_some_iff] at h
    obtain ⟨⟨m1, r1⟩, h1, h2⟩ := h
    injection h2 with h2 h3
    subst h3
    exact recompose_noSwap (elideOps_noSwap m ops h1)
  | .std o =>
    rw [elideOp] at h
    by_cases hs : o.type = .swap ∧ o.controls.card = 0
    · rw [if_pos hs] at h
      split at h
      · split_ifs at h with hd
        injection h with h
        injection h with h2 h3
        subst h3; rfl
      · cases h
    · rw [if_neg hs, Option.map_eq_some_iff] at h
      obtain ⟨e', h1, h2⟩ := h
      injection h2 with h2 h3
      subst h3
      rw [applyLine] at h1
      split_ifs at h1
      injection h1 with h1
      subst h1
      rw [noSwapL, noSwapL, noSwap]
      simp only [Bool.and_true, Bool.not_eq_true', Bool.and_eq_false_imp, decide_eq_true_eq,
        decide_eq_false_iff_not, card_relabel_zero]
      exact fun a b => hs ⟨a, b⟩
  | .measure qs cs =>
    rw [elideOp, Option.map_eq_some_iff] at h
    obtain ⟨e', h1, h2⟩ := h
    injection h2 with h2 h3
    subst h3
    rw [applyLine] at h1
    split_ifs at h1
    injection h1 with h1
    subst h1; rfl
  | .reset qs =>
    rw [elideOp, Option.map_eq_some_iff] at h
    obtain ⟨e', h1, h2⟩ := h
    injection h2 with h2 h3
    subst h3
    rw [applyLine] at h1
    split_ifs at h1
    injection h1 with h1
    subst h1; rfl
  | .classic p e =>
    rw [elideOp, Option.map_eq_some_iff] at h
    obtain ⟨e', h1, h2⟩ := h
    injection h2 with h2 h3
    subst h3
    rw [applyLine, Option.map_eq_some_iff] at h1
    obtain ⟨e1, -, rfl⟩ := h1
    rfl
theorem elideOps_noSwap (m : PMap) (l : List (Op P)) {m' : PMap} {r : List (Op P)}
    (h : elideOps m l = some (m', r)) : noSwapL r = true := by
  match l with
  | [] =>
    rw [elideOps] at h
    injection h with h
    injection h with h2 h3
    subst h3; rfl
  | e :: l =>
    rw [elideOps] at h
    split at h
    · rename_i m1 r1 h1
      split at h
      · rename_i m2 r2 h2
        injection h with h
        injection h with h3 h4
        subst h4
        rw [noSwapL_append, elideOp_noSwap m e h1, elideOps_noSwap m1 l h2]; rfl
      · cases h
    · cases h
end

/-- The domain of the permutation never changes. -/
theorem PMap.swap_isSome {m : PMap} {a b : ℕ} (ha : (m a).isSome) (hb : (m b).isSome) (q : ℕ) :
    (m.swap a b q).isSome = (m q).isSome := by
  unfold PMap.swap
  by_cases h1 : q = b
  · subst h1; rw [Function.update_self, ha, hb]
  · rw [Function.update_of_ne h1]
    by_cases h2 : q = a
    · subst h2; rw [Function.update_self, ha, hb]
    · rw [Function.update_of_ne h2]

theorem applyLine_ok {m : PMap} (e : Op P) (hd : ∀ q ∈ e.lineQubits, (m q).isSome) :
    ∃ e', applyLine m e = some e' := by
  match e with
  | .std o => exact ⟨_, by rw [applyLine, if_pos (by exact hd)]⟩
  | .compound ops b => exact ⟨_, rfl⟩
  | .measure qs cs =>
    exact ⟨_, by rw [applyLine, if_pos fun q hq => hd q (List.mem_toFinset.2 hq)]⟩
  | .reset qs => exact ⟨_, by rw [applyLine, if_pos fun q hq => hd q (List.mem_toFinset.2 hq)]⟩
  | .classic p e =>
    obtain ⟨e', h⟩ := applyLine_ok e hd
    exact ⟨_, by rw [applyLine, h]; rfl⟩

mutual
theorem elideOp_ok {m : PMap} (e : Op ℝ) (hv : e.Valid) (hd : ∀ q ∈ e.usedQ, (m q).isSome) :
    ∃ m' r, elideOp m e = some (m', r) ∧ ∀ q, (m' q).isSome = (m q).isSome := by
  match e with
  | .compound ops b =>
    rw [Op.Valid] at hv
    obtain ⟨m', r, h1, h2⟩ := elideOps_ok ops hv (fun q hq => hd q (by rw [Op.usedQ]; exact hq))
    exact ⟨m', _, by rw [elideOp, h1]; rfl, h2⟩
  | .std o =>
    rw [elideOp]
    by_cases hs : o.type = .swap ∧ o.controls.card = 0
    · rw [if_pos hs]
      rw [Op.Valid] at hv
      obtain ⟨-, f, hf⟩ := hv
      rcases StdOp.denote_cases hf with ⟨hb, -⟩ | ⟨hg, -⟩ | ⟨hs', -⟩ | ⟨h2', a, b, M, e1, -, -⟩
      · rw [hs.1] at hb; cases hb
      · rw [hs.1] at hg; cases hg
      · rw [hs.1] at hs'; exact absurd hs' (by decide)
      · rw [e1]
        have ha : (m a).isSome :=
          hd a (by rw [Op.usedQ]; exact StdOp.mem_used.2 (Or.inl (by rw [e1]; simp)))
        have hb : (m b).isSome :=
          hd b (by rw [Op.usedQ]; exact StdOp.mem_used.2 (Or.inl (by rw [e1]; simp)))
        exact ⟨_, _, by simp only [ha, hb, and_self, if_true]; rfl, PMap.swap_isSome ha hb⟩
    · rw [if_neg hs]
      obtain ⟨e', h⟩ := applyLine_ok (m := m) (.std o) (by rw [Op.usedQ] at hd; exact hd)
      exact ⟨m, _, by rw [h]; rfl, fun _ => rfl⟩
  | .measure qs cs =>
    obtain ⟨e', h⟩ := applyLine_ok (m := m) (.measure qs cs) (by rw [Op.usedQ] at hd; exact hd)
    exact ⟨m, _, by rw [elideOp, h]; rfl, fun _ => rfl⟩
  | .reset qs =>
    obtain ⟨e', h⟩ := applyLine_ok (m := m) (.reset qs) (by rw [Op.usedQ] at hd; exact hd)
    exact ⟨m, _, by rw [elideOp, h]; rfl, fun _ => rfl⟩
  | .classic p e =>
    obtain ⟨e', h⟩ := applyLine_ok (m := m) (.classic p e) (by rw [Op.usedQ] at hd; exact hd)
    exact ⟨m, _, by rw [elideOp, h]; rfl, fun _ => rfl⟩
theorem elideOps_ok {m : PMap} (l : List (Op ℝ)) (hv : Op.ValidL l)
    (hd : ∀ q ∈ Op.usedQL l, (m q).isSome) :
    ∃ m' r, elideOps m l = some (m', r) ∧ ∀ q, (m' q).isSome = (m q).isSome := by
  match l with
  | [] => exact ⟨m, [], by rw [elideOps], fun _ => rfl⟩
  | e :: l =>
    rw [Op.ValidL] at hv
    rw [Op.usedQL] at hd
    obtain ⟨m1, r1, h1, h2⟩ := elideOp_ok e hv.1 fun q hq => hd q (Finset.mem_union_left _ hq)
    obtain ⟨m2, r2, h3, h4⟩ := elideOps_ok (m := m1) l hv.2 fun q hq => by
      rw [h2]; exact hd q (Finset.mem_union_right _ hq)
    exact ⟨m2, r1 ++ r2, by rw [elideOps, h1]; simp only [h3], fun q => by rw [h4, h2]⟩
end

/-! ### The whole pass -/

/-- `σ` sends every physical qubit of the layout to its logical qubit. -/
def LayExt (l : List (ℕ × ℕ)) (σ : Equiv.Perm ℕ) : Prop := ∀ p ∈ l, σ p.1 = p.2

theorem lay_ext {l : List (ℕ × ℕ)} {σ : Equiv.Perm ℕ} (h : LayExt l σ) : Ext (lay l) σ := by
  intro q r hq
  unfold lay at hq
  rw [Option.map_eq_some_iff] at hq
  obtain ⟨p, h1, rfl⟩ := hq
  have := List.find?_some h1
  simp only [decide_eq_true_eq] at this
  rw [← this]; exact h p (List.mem_of_find?_eq_some h1)

theorem lay_isSome {l : List (ℕ × ℕ)} {q : ℕ} (h : ∃ p ∈ l, p.1 = q) : (lay l q).isSome := by
  obtain ⟨p, hp, rfl⟩ := h
  unfold lay
  rw [Option.isSome_map, List.find?_isSome]
  exact ⟨p, hp, by simp⟩

/-- What a circuit does to logical qubits: place the logical input on the physical qubits, run, read
the physical output back as logical output. -/
noncomputable def logicalRun (σ τ : Equiv.Perm ℕ) (ops : List (Op ℝ)) (c : Cfg) : Option Cfg :=
  (run ops (c.mapSt (ren σ.symm))).map (Cfg.mapSt (ren τ))

theorem elide_correct {qc qc' : LQC ℝ} (h : elidePermutations qc = some qc')
    (hp : Op.plainL qc.ops = true) (hv : Op.ValidL qc.ops) {σ τ : Equiv.Perm ℕ}
    (hσ : LayExt qc.initial σ) (hτ : LayExt qc.output τ) :
    ∃ σ' τ', LayExt qc'.initial σ' ∧ LayExt qc'.output τ' ∧
      logicalRun σ' τ' qc'.ops = logicalRun σ τ qc.ops := by
  rw [elidePermutations] at h
  by_cases he : qc.ops.isEmpty = true
  · rw [if_pos he] at h
    injection h with h
    subst h
    exact ⟨σ, τ, hσ, hτ, rfl⟩
  · rw [if_neg he] at h
    split at h
    · cases h
    · rename_i m ops' hm
      split_ifs at h with ho
      injection h with h
      subst h
      obtain ⟨σ', h1, h2⟩ := elideOps_correct (lay_ext hσ) qc.ops hp hv hm
      refine ⟨Equiv.refl ℕ, σ'.symm.trans τ, ?_, ?_, ?_⟩
      · intro p hp
        rw [List.mem_map] at hp
        obtain ⟨p, -, rfl⟩ := hp
        rfl
      · intro p hp
        rw [List.mem_map] at hp
        obtain ⟨p, hp, rfl⟩ := hp
        simp only [h1.getD (ho p hp), Equiv.trans_apply, Equiv.symm_apply_apply]
        exact hτ p hp
      · funext c
        unfold logicalRun
        have e0 : c.mapSt (ren (Equiv.refl ℕ).symm) = (c.mapSt (ren σ.symm)).mapSt (ren σ) := by
          have := ren_symm σ c.st
          simp only [Cfg.mapSt, this]; rfl
        rw [e0, h2]
        cases run qc.ops (c.mapSt (ren σ.symm)) with
        | none => rfl
        | some d =>
          simp only [Option.map_some, Cfg.mapSt, ren_trans]
          rw [← Equiv.trans_assoc, Equiv.self_trans_symm, Equiv.refl_trans]

theorem elide_ok {qc : LQC ℝ} (hv : Op.ValidL qc.ops)
    (hd : ∀ q ∈ Op.usedQL qc.ops, ∃ p ∈ qc.initial, p.1 = q)
    (ho : ∀ p ∈ qc.output, ∃ p' ∈ qc.initial, p'.1 = p.1) :
    ∃ qc', elidePermutations qc = some qc' ∧ noSwapL qc'.ops = true ∧
      qc'.initial.map Prod.snd = qc.initial.map Prod.snd ∧
      qc'.output.map Prod.snd = qc.output.map Prod.snd ∧
      (qc.ops ≠ [] → ∀ p ∈ qc'.initial, p.1 = p.2) := by
  rw [elidePermutations]
  by_cases he : qc.ops.isEmpty = true
  · rw [if_pos he]
    refine ⟨qc, rfl, ?_, rfl, rfl, fun h => absurd (List.isEmpty_iff.1 he) h⟩
    rw [List.isEmpty_iff.1 he]; rfl
  · rw [if_neg he]
    obtain ⟨m, r, h1, h2⟩ := elideOps_ok (m := lay qc.initial) qc.ops hv fun q hq => lay_isSome (hd q hq)
    rw [h1]
    simp only
    rw [if_pos]
    · refine ⟨_, rfl, elideOps_noSwap _ _ h1, by simp, by simp, fun _ p hp => ?_⟩
      rw [List.mem_map] at hp
      obtain ⟨p, -, rfl⟩ := hp
      rfl
    · intro p hp
      rw [h2]; exact lay_isSome (ho p hp)

end MQT.Opt
