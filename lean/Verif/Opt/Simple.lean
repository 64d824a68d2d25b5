/-
Passes that rewrite one operation at a time.

Sources (`src/circuit_optimizer/CircuitOptimizer.cpp`): 591-653 `decomposeSWAP`,
946-990 `flattenOperations`, 1153-1197 `replaceMCXWithMCZ`.

`none` = undefined behaviour (`targets[1]` of a SWAP with fewer than two targets, `getTargets()[0]`
of an X gate without target).
-/
import Verif.Opt.CancelCNOTs

set_option autoImplicit false
set_option linter.unusedSectionVars false

namespace MQT.Opt

open MQT.IR
open Function (update)

variable {P : Type}

/-- `StandardOperation(Control{c}, t, X)`. -/
def cxOp (c t : ℕ) : Op P := .std { type := .x, controls := {(c, true)}, targets := [t] }

/-- `StandardOperation(t, H)`. -/
def hOp (t : ℕ) : Op P := .std { type := .h, targets := [t] }

/-- Concatenate the results for the operations of a list; `none` if one fails. -/
def concatMapM {α β : Type} (f : α → Option (List β)) : List α → Option (List β)
  | [] => some []
  | a :: l => match f a, concatMapM f l with
    | some r, some r' => some (r ++ r')
    | _, _ => none

/-! ### decomposeSWAP -/

/-- The gates put in place of a SWAP (599-620): inserted back to front. -/
def swapGates (directed : Bool) (t0 t1 : ℕ) : List (Op P) :=
  if directed then
    [cxOp t0 t1, hOp t1, hOp t0, cxOp t0 t1, hOp t1, hOp t0, cxOp t0 t1]
  else [cxOp t0 t1, cxOp t1 t0, cxOp t0 t1]

/-- A standard operation: replaced if it is a SWAP (whatever its controls). -/
def decomposeStd (directed : Bool) (o : StdOp P) : Option (List (Op P)) :=
  if o.type = .swap then
    match o.targets with
    | t0 :: t1 :: _ => some (swapGates directed t0 t1)
    | _ => none
  else some [.std o]

/-- The inner loop over a compound operation's parts (625-647). -/
def decomposePart (directed : Bool) : Op P → Option (List (Op P))
  | .std o => decomposeStd directed o
  | e => some [e]

/-- One operation of the circuit (596-650). -/
def decompose1 (directed : Bool) : Op P → Option (List (Op P))
  | .std o => decomposeStd directed o
  | .compound ops b => (concatMapM (decomposePart directed) ops).map fun l => [.compound l b]
  | e => some [e]

/-- `decomposeSWAP`. -/
def decomposeSWAP (directed : Bool) (ops : List (Op P)) : Option (List (Op P)) :=
  concatMapM (decompose1 directed) ops

/-! ### replaceMCXWithMCZ -/

mutual
/-- One operation (1158-1184). -/
def mczOp : Op P → Option (List (Op P))
  | .std o =>
    if o.type = .x ∧ o.controls.card > 0 then
      match o.targets with
      | t :: _ => some [hOp t, .std { type := .z, controls := o.controls, targets := [t] }, hOp t]
      | [] => none
    else some [.std o]
  | .compound ops b => (mczOps ops).map fun l => [.compound l b]
  | .measure qs cs => some [.measure qs cs]
  | .reset qs => some [.reset qs]
  | .classic p e => some [.classic p e]
/-- `replaceMCXWithMCZ` on a sequence (1153-1197). -/
def mczOps : List (Op P) → Option (List (Op P))
  | [] => some []
  | e :: l => match mczOp e, mczOps l with
    | some r, some r' => some (r ++ r')
    | _, _ => none
end

/-! ### flattenOperations -/

mutual
/-- Number of operations, counting nested ones. -/
def Op.weight : Op P → ℕ
  | .std _ => 1
  | .compound ops _ => 1 + weightL ops
  | .measure _ _ => 1
  | .reset _ => 1
  | .classic _ _ => 1
def weightL : List (Op P) → ℕ
  | [] => 0
  | e :: l => e.weight + weightL l
end

theorem weightL_append (l l' : List (Op P)) : weightL (l ++ l') = weightL l + weightL l' := by
  induction l with
  | nil => rw [List.nil_append, weightL, Nat.zero_add]
  | cons e l ih => rw [List.cons_append, weightL, weightL, ih]; omega

theorem weight_pos (e : Op P) : 0 < e.weight := by
  cases e <;> simp [Op.weight]

/-- `flattenOperations` (972-990): `it` runs over the circuit; a compound operation (that is a custom
gate, if only those are to be flattened) is replaced by its contents and `it` stays at the first of
them, so that nested compound operations are met again. -/
def flatten (customOnly : Bool) : List (Op P) → List (Op P)
  | [] => []
  | .compound ops b :: l =>
    if !customOnly || b then flatten customOnly (ops ++ l)
    else .compound ops b :: flatten customOnly l
  | .std o :: l => .std o :: flatten customOnly l
  | .measure qs cs :: l => .measure qs cs :: flatten customOnly l
  | .reset qs :: l => .reset qs :: flatten customOnly l
  | .classic p e :: l => .classic p e :: flatten customOnly l
termination_by l => weightL l
decreasing_by
  all_goals simp only [weightL, weightL_append, Op.weight]
  all_goals omega

mutual
/-- Elementary (non-compound) operations in order of execution. -/
def Op.elems : Op P → List (Op P)
  | .std o => [.std o]
  | .compound ops _ => elemsL ops
  | .measure qs cs => [.measure qs cs]
  | .reset qs => [.reset qs]
  | .classic p e => [.classic p e]
def elemsL : List (Op P) → List (Op P)
  | [] => []
  | e :: l => e.elems ++ elemsL l
end

theorem elemsL_append (l l' : List (Op P)) : elemsL (l ++ l') = elemsL l ++ elemsL l' := by
  induction l with
  | nil => rfl
  | cons e l ih => rw [List.cons_append, elemsL, elemsL, ih, List.append_assoc]

theorem flatten_elems (b : Bool) (l : List (Op P)) : elemsL (flatten b l) = elemsL l := by
  fun_induction flatten b l with
  | case1 => rfl
  | case2 ops c l h ih => rw [ih, elemsL_append, elemsL, Op.elems]
  | case3 ops c l h ih => rw [elemsL, elemsL, ih]
  | case4 o l ih => rw [elemsL, elemsL, ih]
  | case5 qs cs l ih => rw [elemsL, elemsL, ih]
  | case6 qs l ih => rw [elemsL, elemsL, ih]
  | case7 p e l ih => rw [elemsL, elemsL, ih]

theorem flatten_all (l : List (Op P)) : flatten false l = elemsL l := by
  fun_induction flatten false l with
  | case1 => rfl
  | case2 ops c l h ih => rw [ih, elemsL_append, elemsL, Op.elems]
  | case3 ops c l h ih => simp at h
  | case4 o l ih => rw [elemsL, ih, Op.elems]; rfl
  | case5 qs cs l ih => rw [elemsL, ih, Op.elems]; rfl
  | case6 qs l ih => rw [elemsL, ih, Op.elems]; rfl
  | case7 p e l ih => rw [elemsL, ih, Op.elems]; rfl

theorem flatten_custom (l : List (Op P)) (e : Op P) (he : e ∈ flatten true l) (ops : List (Op P)) :
    e ≠ .compound ops true := by
  fun_induction flatten true l with
  | case1 => simp at he
  | case2 ops' c l h ih => exact ih he
  | case3 ops' c l h ih =>
    rcases List.mem_cons.1 he with rfl | he
    · rintro ⟨⟩; simp at h
    · exact ih he
  | case4 o l ih => rcases List.mem_cons.1 he with rfl | he <;> [(rintro ⟨⟩); exact ih he]
  | case5 qs cs l ih => rcases List.mem_cons.1 he with rfl | he <;> [(rintro ⟨⟩); exact ih he]
  | case6 qs l ih => rcases List.mem_cons.1 he with rfl | he <;> [(rintro ⟨⟩); exact ih he]
  | case7 p e' l ih => rcases List.mem_cons.1 he with rfl | he <;> [(rintro ⟨⟩); exact ih he]

mutual
theorem exec_elems (e : Op ℝ) : run e.elems = exec e := by
  match e with
  | .std o => rw [Op.elems, run_singleton]
  | .compound ops b => rw [Op.elems, run_compound]; exact run_elems ops
  | .measure qs cs => rw [Op.elems, run_singleton]
  | .reset qs => rw [Op.elems, run_singleton]
  | .classic p e => rw [Op.elems, run_singleton]
theorem run_elems (l : List (Op ℝ)) : run (elemsL l) = run l := by
  match l with
  | [] => rfl
  | e :: l =>
    funext c
    rw [elemsL, run_append, run_cons, exec_elems e, run_elems l]
end

/-! ### Gate identities -/

/-- The Hadamard matrix. -/
noncomputable def hadM : Mat1 := mat1 r2 r2 r2 (-r2)

theorem r2_sq' : (r2 : ℂ) * r2 = 1 / 2 := by
  rw [← Complex.ofReal_mul, r2_sq]; norm_num

theorem h_mul_h : hadM * hadM = 1 := by
  rw [hadM, mat1_mul, one_eq_mat1]
  have := r2_sq'
  apply mat1_congr <;> grind

theorem hzh : hadM * mat1 1 0 0 (-1) * hadM = mat1 0 1 1 0 := by
  rw [hadM, mat1_mul, mat1_mul]
  have := r2_sq'
  apply mat1_congr <;> grind

theorem gate1_h (ps : List ℝ) : gate1 .h ps = some hadM := by
  show some _ = some _
  congr 1
  unfold hadM
  apply mat1_congr <;> apply Complex.ext <;> simp

/-- A Hadamard on qubit `t`. -/
noncomputable def hadF (t : ℕ) : State → State := app1 hadM t

theorem hadF_hadF (t : ℕ) (ψ : State) : hadF t (hadF t ψ) = ψ := by
  unfold hadF; rw [app1_mul, h_mul_h, app1_one]

theorem hadF_comm {s t : ℕ} (h : s ≠ t) (ψ : State) : hadF s (hadF t ψ) = hadF t (hadF s ψ) :=
  app1_app1_comm _ _ h ψ

/-- `X` conjugated by Hadamards on the target is `Z`, with any controls. -/
theorem ctl_hzh {cs : Finset Ctrl} {t : ℕ} (ht : t ∉ ctrlQubits cs) (ψ : State) :
    hadF t (ctl cs (app1 (mat1 1 0 0 (-1)) t) (hadF t ψ)) = ctl cs (app1 (mat1 0 1 1 0) t) ψ := by
  funext x
  by_cases hs : Sat cs x
  · have e1 : hadF t (ctl cs (app1 (mat1 1 0 0 (-1)) t) (hadF t ψ)) x =
        hadF t (app1 (mat1 1 0 0 (-1)) t (hadF t ψ)) x := by
      refine app1_local ht _ _ _ ?_ x hs
      intro y hy
      rw [ctl, if_pos hy]
    rw [e1, ctl, if_pos hs]
    unfold hadF
    rw [app1_mul, app1_mul, hzh]
  · have e1 : hadF t (ctl cs (app1 (mat1 1 0 0 (-1)) t) (hadF t ψ)) x = hadF t (hadF t ψ) x := by
      have hn : ∀ b, ¬ Sat cs (update x t b) := fun b hb => hs ((sat_update ht x b).1 hb)
      rw [hadF, app1, app1]
      refine Finset.sum_congr rfl fun b _ => ?_
      rw [ctl, if_neg (hn b)]
    rw [e1, hadF_hadF, ctl, if_neg hs]

theorem hOp_exec (t : ℕ) (c : Cfg) : exec (hOp t) c = some (c.mapSt (hadF t)) := by
  rw [hOp, exec, StdOp.denote_single_of (q := t) (M := hadM) rfl rfl (gate1_h _)]
  rw [ctl_empty]; rfl

theorem cxOp_exec (c t : ℕ) (k : Cfg) : exec (cxOp c t) k = some (k.mapSt (pull (cxMap c t))) := by
  rw [cxOp]; exact exec_pull (cnot_denote rfl rfl rfl) k

/-- The controlled Z is symmetric in its two qubits. -/
theorem cz_symm (a b : ℕ) :
    ctl {(a, true)} (app1 (mat1 1 0 0 (-1)) b) = ctl {(b, true)} (app1 (mat1 1 0 0 (-1)) a) := by
  funext ψ x
  have hs : ∀ q, Sat {(q, true)} x ↔ x q = true := by intro q; simp [Sat]
  have hu : ∀ q b, x q = b → update x q b = x := fun q b e => by rw [← e, Function.update_eq_self]
  simp only [ctl, hs, app1, Fintype.sum_bool, mat1]
  cases ha : x a <;> cases hb : x b <;> simp [hu _ _ ha, hu _ _ hb]

theorem pull_cx_eq {c t : ℕ} : pull (cxMap c t) = ctl {(c, true)} (app1 (mat1 0 1 1 0) t) := by
  have h1 := cnot_denote (o := { type := .x, controls := {(c, true)}, targets := [t] }) rfl rfl rfl
  rw [StdOp.denote_single_of (q := t) (M := mat1 0 1 1 0) rfl rfl rfl] at h1
  exact (Option.some.inj h1).symm

/-- Hadamards on both qubits turn a CNOT around. -/
theorem hh_cx_hh {a b : ℕ} (h : a ≠ b) (ψ : State) :
    hadF a (hadF b (pull (cxMap a b) (hadF a (hadF b ψ)))) = pull (cxMap b a) ψ := by
  rw [pull_cx_eq, pull_cx_eq]
  rw [← ctl_hzh (cs := {(a, true)}) (t := b) (by simp [ctrlQubits]; omega),
    ← ctl_hzh (cs := {(b, true)}) (t := a) (by simp [ctrlQubits]; omega)]
  rw [hadF_hadF, hadF_comm h, hadF_hadF, cz_symm a b]

theorem mapSt_mapSt (f g : State → State) (c : Cfg) : (c.mapSt f).mapSt g = c.mapSt fun ψ => g (f ψ) :=
  rfl

/-- The replacement of an uncontrolled SWAP. -/
theorem run_swapGates {t0 t1 : ℕ} (h : t0 ≠ t1) (d : Bool) (c : Cfg) :
    run (swapGates d t0 t1) c = some (c.mapSt (pull (swapMap t0 t1))) := by
  have key : (fun ψ : State => pull (cxMap t0 t1) (pull (cxMap t1 t0) (pull (cxMap t0 t1) ψ))) =
      pull (swapMap t0 t1) := by
    funext ψ x
    exact congrArg ψ (cx_cx_cx_eq_swap h x)
  unfold swapGates
  cases d
  · simp only [Bool.false_eq_true, if_false, run_cons, cxOp_exec, Option.bind_some, run_nil,
      mapSt_mapSt, key]
  · simp only [if_true, run_cons, cxOp_exec, hOp_exec, Option.bind_some, run_nil,
      mapSt_mapSt, hh_cx_hh h, key]

/-- Every SWAP that `decomposeSWAP` reaches is uncontrolled. -/
def NoCtrlSwap (o : StdOp P) : Prop := o.type = .swap → o.controls = ∅

def ReachedSwapsPlain : Op P → Prop
  | .std o => NoCtrlSwap o
  | .compound ops _ => ∀ o, Op.std o ∈ ops → NoCtrlSwap o
  | _ => True

theorem decomposeStd_correct {d : Bool} {o : StdOp ℝ} (hv : (Op.std o).Valid) (hn : NoCtrlSwap o) :
    ∃ l, decomposeStd d o = some l ∧ run l = exec (.std o) := by
  rw [decomposeStd]
  by_cases h : o.type = .swap
  · rw [if_pos h]
    rw [Op.Valid] at hv
    obtain ⟨wf, f, hf⟩ := hv
    rcases StdOp.denote_cases hf with ⟨hb, -⟩ | ⟨hg, -⟩ | ⟨hs, -⟩ | ⟨h2', a, b, M, e1, -, -⟩
    · rw [h] at hb; cases hb
    · rw [h] at hg; cases hg
    · rw [h] at hs; exact absurd hs (by decide)
    · rw [e1]
      refine ⟨_, rfl, ?_⟩
      have hab : a ≠ b := by
        have := wf.nodup
        rw [e1] at this
        simpa using this
      funext c
      rw [run_swapGates hab, exec_pull (swap_denote h (hn h) e1)]
  · rw [if_neg h]; exact ⟨_, rfl, run_singleton _⟩

theorem concatMapM_run {f : Op ℝ → Option (List (Op ℝ))} {ops : List (Op ℝ)}
    (h : ∀ e ∈ ops, ∃ l, f e = some l ∧ run l = exec e) :
    ∃ l, concatMapM f ops = some l ∧ run l = run ops := by
  induction ops with
  | nil => exact ⟨[], rfl, rfl⟩
  | cons e l ih =>
    obtain ⟨r, h1, h2⟩ := h e (by simp)
    obtain ⟨r', h3, h4⟩ := ih fun e' he' => h e' (List.mem_cons_of_mem _ he')
    refine ⟨r ++ r', by rw [concatMapM, h1, h3], ?_⟩
    funext c
    rw [run_append, run_cons, h2, h4]

theorem decompose1_correct {d : Bool} {e : Op ℝ} (hv : e.Valid) (hn : ReachedSwapsPlain e) :
    ∃ l, decompose1 d e = some l ∧ run l = exec e := by
  match e with
  | .std o => exact decomposeStd_correct hv hn
  | .compound ops b =>
    rw [Op.Valid, Op.validL_iff] at hv
    obtain ⟨l, h1, h2⟩ := concatMapM_run (f := decomposePart d) (ops := ops) (by
      intro e he
      match e with
      | .std o => exact decomposeStd_correct (hv _ he) (hn o he)
      | .compound l b => exact ⟨_, rfl, run_singleton _⟩
      | .measure _ _ => exact ⟨_, rfl, run_singleton _⟩
      | .reset _ => exact ⟨_, rfl, run_singleton _⟩
      | .classic _ _ => exact ⟨_, rfl, run_singleton _⟩)
    refine ⟨[.compound l b], by rw [decompose1, h1]; rfl, ?_⟩
    rw [run_singleton, run_compound, run_compound, h2]
  | .measure _ _ => exact ⟨_, rfl, run_singleton _⟩
  | .reset _ => exact ⟨_, rfl, run_singleton _⟩
  | .classic _ _ => exact ⟨_, rfl, run_singleton _⟩

theorem concatMapM_mem {α β : Type} {f : α → Option (List β)} {l : List α} {r : List β}
    (h : concatMapM f l = some r) {b : β} (hb : b ∈ r) : ∃ a ∈ l, ∃ r', f a = some r' ∧ b ∈ r' := by
  induction l generalizing r with
  | nil => rw [concatMapM] at h; injection h with h; subst h; simp at hb
  | cons a l ih =>
    rw [concatMapM] at h
    split at h
    · rename_i r1 r2 h1 h2
      injection h with h
      subst h
      rcases List.mem_append.1 hb with hb | hb
      · exact ⟨a, by simp, r1, h1, hb⟩
      · obtain ⟨a', ha', r', h3, h4⟩ := ih h2 hb
        exact ⟨a', List.mem_cons_of_mem _ ha', r', h3, h4⟩
    · cases h

theorem swapGates_no_swap {d : Bool} {t0 t1 : ℕ} {e : Op P} (h : e ∈ swapGates d t0 t1) :
    e.type ≠ .swap := by
  unfold swapGates at h
  split_ifs at h
  all_goals
    simp only [List.mem_cons, List.not_mem_nil, or_false] at h
    rcases h with rfl | rfl | rfl | rfl | rfl | rfl | rfl <;> rintro ⟨⟩

theorem decomposeStd_no_swap {d : Bool} {o : StdOp P} {l : List (Op P)}
    (h : decomposeStd d o = some l) {e : Op P} (he : e ∈ l) : e.type ≠ .swap := by
  rw [decomposeStd] at h
  split_ifs at h with hs
  · split at h
    · injection h with h; subst h; exact swapGates_no_swap he
    · cases h
  · injection h with h; subst h
    rw [List.mem_singleton] at he; subst he
    exact hs

/-! ### replaceMCXWithMCZ -/

mutual
/-- No controlled X anywhere (outside classically controlled operations). -/
def noMCX : Op P → Bool
  | .std o => !(decide (o.type = .x) && decide (o.controls.card > 0))
  | .compound ops _ => noMCXL ops
  | .measure _ _ => true
  | .reset _ => true
  | .classic _ _ => true
def noMCXL : List (Op P) → Bool
  | [] => true
  | e :: l => noMCX e && noMCXL l
end

theorem noMCXL_append (l l' : List (Op P)) : noMCXL (l ++ l') = (noMCXL l && noMCXL l') := by
  induction l with
  | nil => rw [List.nil_append, noMCXL, Bool.true_and]
  | cons e l ih => rw [List.cons_append, noMCXL, noMCXL, ih, Bool.and_assoc]

mutual
theorem mczOp_correct (e : Op ℝ) (hv : e.Valid) :
    ∃ l, mczOp e = some l ∧ run l = exec e ∧ noMCXL l = true := by
  match e with
  | .std o =>
    rw [mczOp]
    by_cases h : o.type = .x ∧ o.controls.card > 0
    · rw [if_pos h]
      rw [Op.Valid] at hv
      obtain ⟨wf, f, hf⟩ := hv
      rcases StdOp.denote_cases hf with ⟨hb, -⟩ | ⟨hg, -⟩ | ⟨hs, t, M, e1, -, -⟩ | ⟨h2', -⟩
      · rw [h.1] at hb; cases hb
      · rw [h.1] at hg; cases hg
      · rw [e1]
        refine ⟨_, rfl, ?_, ?_⟩
        · funext c
          have ht : t ∉ ctrlQubits o.controls := wf.disj t (by rw [e1]; simp)
          have hz : exec (.std { type := .z, controls := o.controls, targets := [t] }) =
              fun c : Cfg => some (c.mapSt (ctl o.controls (app1 (mat1 1 0 0 (-1)) t))) := by
            funext c
            rw [exec, StdOp.denote_single_of (q := t) (M := mat1 1 0 0 (-1)) rfl rfl rfl]; rfl
          have hx : exec (.std o) c = some (c.mapSt (ctl o.controls (app1 (mat1 0 1 1 0) t))) := by
            rw [exec, StdOp.denote_single_of (q := t) (M := mat1 0 1 1 0) (by rw [h.1]; rfl) e1
              (by rw [h.1]; rfl)]; rfl
          simp only [run_cons, hOp_exec, hz, Option.bind_some, run_nil, mapSt_mapSt, ctl_hzh ht, hx]
        · rfl
      · rw [h.1] at h2'; exact absurd h2' (by decide)
    · rw [if_neg h]
      refine ⟨_, rfl, run_singleton _, ?_⟩
      rw [noMCXL, noMCXL, noMCX]
      simp only [Bool.and_true, Bool.not_eq_true', Bool.and_eq_false_imp, decide_eq_true_eq,
        decide_eq_false_iff_not]
      exact fun h1 h2 => h ⟨h1, h2⟩
  | .compound ops b =>
    rw [Op.Valid] at hv
    obtain ⟨l, h1, h2, h3⟩ := mczOps_correct ops hv
    refine ⟨[.compound l b], by rw [mczOp, h1]; rfl, ?_, ?_⟩
    · rw [run_singleton, run_compound, run_compound, h2]
    · rw [noMCXL, noMCXL, noMCX, h3]; rfl
  | .measure _ _ => exact ⟨_, by rw [mczOp], run_singleton _, rfl⟩
  | .reset _ => exact ⟨_, by rw [mczOp], run_singleton _, rfl⟩
  | .classic _ _ => exact ⟨_, by rw [mczOp], run_singleton _, rfl⟩
theorem mczOps_correct (l : List (Op ℝ)) (hv : Op.ValidL l) :
    ∃ l', mczOps l = some l' ∧ run l' = run l ∧ noMCXL l' = true := by
  match l with
  | [] => exact ⟨[], by rw [mczOps], rfl, rfl⟩
  | e :: l =>
    rw [Op.ValidL] at hv
    obtain ⟨r, h1, h2, h3⟩ := mczOp_correct e hv.1
    obtain ⟨r', h4, h5, h6⟩ := mczOps_correct l hv.2
    refine ⟨r ++ r', by rw [mczOps, h1, h4], ?_, by rw [noMCXL_append, h3, h6]; rfl⟩
    funext c
    rw [run_append, run_cons, h2, h5]
end

end MQT.Opt
