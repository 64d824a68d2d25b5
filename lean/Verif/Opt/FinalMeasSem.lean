/-
What removing final measurements (`Verif.Opt.FinalMeas`) does to the meaning of a circuit: the final
measurements can be done after everything else.
-/
import Verif.Opt.FinalMeas
import Verif.Opt.Defer

set_option autoImplicit false
set_option linter.unusedSectionVars false

namespace MQT.Opt.Final

open MQT.IR MQT.Opt.Defer
open Function (update)

/-- Operations that use a fixed number of outcomes. -/
def Steady : Op ℝ → Prop
  | .classic _ op => unitary op = true
  | .measure _ _ => True
  | .reset _ => True
  | op => unitary op = true

/-- How many outcomes it uses. -/
def drawn : Op ℝ → ℕ
  | .measure qs cs => (qs.zip cs).length
  | .reset qs => qs.length
  | _ => 0

theorem steady_orc {e : Op ℝ} (he : Steady e) (c : Cfg) (o' : ℕ → Bool) (h : ∀ i < drawn e, o' i = c.orc i) :
    exec e { c with orc := o' } =
      (exec e c).map fun d => { d with orc := fun n => o' (n + drawn e) } := by
  match e with
  | .std s => exact unitary_orc he c o'
  | .compound l b => exact unitary_orc he c o'
  | .measure qs cs =>
    rw [exec, exec, measure_orc _ c o' h]
    rfl
  | .reset qs =>
    rw [exec, exec, reset_orc _ c o' h]
    rfl
  | .classic cc op =>
    rw [exec, exec]
    simp only
    split_ifs
    · exact unitary_orc he c o'
    · rfl

theorem Same.consOp {e : Op ℝ} (he : Steady e) {l l' : List (Op ℝ)} (h : Same l l') :
    Same (e :: l) (e :: l') := by
  obtain ⟨π, h⟩ := h
  refine ⟨upN (drawn e) π, fun c => ?_⟩
  rw [run_cons, run_cons, steady_orc he c (c.orc ∘ upN (drawn e) π) fun i hi => congrArg c.orc (upN_lt _ _ _ hi)]
  have h1 := steady_orc he c c.orc fun _ _ => rfl
  cases hd : exec e c with
  | none => rfl
  | some d =>
    have h2 : exec e { c with orc := c.orc } = some d := hd
    rw [h2, Option.map_some, Option.some.injEq] at h1
    have h3 : d.orc = fun n => c.orc (n + drawn e) := by rw [h1]
    rw [Option.map_some, Option.bind_some, Option.bind_some, h]
    congr 2
    funext n
    show d.orc (π n) = c.orc (upN (drawn e) π (n + drawn e))
    rw [upN_add, h3]

theorem Same.prefixOp {l l' : List (Op ℝ)} (h : Same l l') (p : List (Op ℝ)) (hp : ∀ e ∈ p, Steady e) :
    Same (p ++ l) (p ++ l') := by
  induction p with
  | nil => exact h
  | cons e p ih => exact Same.consOp (hp e (by simp)) (ih fun e he => hp e (List.mem_cons_of_mem _ he))

theorem same_of_run {l l' : List (Op ℝ)} (h : run l = run l') : Same l l' :=
  ⟨Equiv.refl _, fun c => by rw [h]; rfl⟩

/-- Measuring one qubit into one bit. -/
def one (p : ℕ × ℕ) : Op ℝ := .measure [p.1] [p.2]

theorem exec_one (p : ℕ × ℕ) (c : Cfg) : exec (one p) c = some (measure1 p.1 p.2 c) := by
  rw [one, exec]; rfl

theorem run_ones (z : List (ℕ × ℕ)) (c : Cfg) :
    run (z.map one) c = some (z.foldl (fun c p => measure1 p.1 p.2 c) c) := by
  induction z generalizing c with
  | nil => rw [List.map_nil, run_nil]; rfl
  | cons p z ih => rw [List.map_cons, run_cons, exec_one, Option.bind_some, ih]; rfl

/-- A measurement of several qubits measures one after the other. -/
theorem run_measure (qs cs : List ℕ) : run [.measure qs cs] = run ((qs.zip cs).map one) := by
  funext c
  rw [run_singleton, run_ones, exec]

theorem run_resets (qs : List ℕ) (c : Cfg) :
    run (qs.map fun q => .reset [q]) c = some (qs.foldl (fun c q => reset1 q c) c) := by
  induction qs generalizing c with
  | nil => rw [List.map_nil, run_nil]; rfl
  | cons q qs ih =>
    rw [List.map_cons, run_cons, exec, List.foldl_cons, List.foldl_nil, Option.bind_some, ih]; rfl

theorem run_reset (qs : List ℕ) : run [.reset qs] = run (qs.map fun q => .reset [q]) := by
  funext c
  rw [run_singleton, run_resets, exec]

theorem swap_measure {p p' : ℕ × ℕ} (hq : p.1 ≠ p'.1) (hb : p.2 ≠ p'.2) :
    Same [one p, one p'] [one p', one p] := same_swap hq hb

theorem swap_reset {p : ℕ × ℕ} {q : ℕ} (hq : p.1 ≠ q) :
    Same [one p, .reset [q]] [.reset [q], one p] := by
  have er : ∀ c, exec (.reset [q]) c = some (reset1 q c) := fun c => by rw [exec]; rfl
  refine ⟨Equiv.swap 0 1, fun c => ?_⟩
  rw [run_cons, exec_one, Option.bind_some, run_singleton, er, run_cons, er, Option.bind_some,
    run_singleton, exec_one]
  simp only [measure1, reset1, Function.comp, Equiv.swap_apply_left, Nat.zero_add, Equiv.swap_apply_right]
  congr 2
  by_cases h : c.orc 1 = true
  · simp only [h, if_true]
    rw [app1_app1_comm _ _ hq, app1_app1_comm _ _ hq]
  · simp only [h, Bool.false_eq_true, if_false]
    rw [app1_app1_comm _ _ hq]

/-- The operation neither writes nor reads the bit. -/
def Ignores (b : ℕ) : Op ℝ → Prop
  | .measure _ cs => b ∉ cs
  | .classic cond _ => ∀ m v, cond (update m b v) = cond m
  | _ => True

/-- A measurement past a list of measurements of other qubits into other bits. -/
theorem pass_list {p : ℕ × ℕ} {α : Type} (g : α → Op ℝ) (hs : ∀ a, Steady (g a)) (z : List α)
    (h : ∀ a ∈ z, Same [one p, g a] [g a, one p]) : Same (one p :: z.map g) (z.map g ++ [one p]) := by
  induction z with
  | nil => exact Same.refl _
  | cons a z ih =>
    have h1 : Same (one p :: g a :: z.map g) (g a :: one p :: z.map g) := (h a (by simp)).append (z.map g)
    exact h1.trans (Same.consOp (hs a) (ih fun a ha => h a (List.mem_cons_of_mem _ ha)))

/-- A measurement past an operation that has nothing to do with it. -/
theorem pass_one {p : ℕ × ℕ} {e : Op ℝ} (he : Steady e) (hq : p.1 ∉ e.acts) (hb : Ignores p.2 e) :
    Same [one p, e] [e, one p] := by
  have hun : ∀ op : Op ℝ, unitary op = true → p.1 ∉ op.acts → ∀ c,
      (exec op (measure1 p.1 p.2 c)) = (exec op c).map (measure1 p.1 p.2) := fun op h1 h2 c =>
    measure_unitary h1 p.2 h2 c
  have fin : ∀ op : Op ℝ, (∀ c, exec op (measure1 p.1 p.2 c) = (exec op c).map (measure1 p.1 p.2)) →
      Same [one p, op] [op, one p] := by
    intro op h
    refine same_of_run ?_
    funext c
    rw [run_cons, exec_one, Option.bind_some, run_singleton, h, run_cons]
    cases exec op c with
    | none => rfl
    | some d => rw [Option.bind_some, run_singleton, exec_one]; rfl
  match e, he, hq, hb with
  | .std s, he, hq, _ => exact fin _ (hun _ he hq)
  | .compound l b, he, hq, _ => exact fin _ (hun _ he hq)
  | .measure qs cs, _, hq, hb =>
    have h1 : Same [one p, .measure qs cs] (one p :: (qs.zip cs).map one) :=
      same_of_run (run_append_congr (a := [one p]) (b := [.measure qs cs]) rfl (run_measure qs cs))
    have h3 : Same ((qs.zip cs).map one ++ [one p]) ([.measure qs cs] ++ [one p]) :=
      same_of_run (run_append_congr (run_measure qs cs).symm rfl)
    refine (h1.trans (pass_list one (fun _ => trivial) _ fun a ha => ?_)).trans h3
    have hz := List.of_mem_zip (a := a.1) (b := a.2) ha
    refine swap_measure ?_ ?_
    · intro h
      exact hq (by rw [Op.acts, List.mem_toFinset, h]; exact hz.1)
    · intro h
      exact hb (by rw [h]; exact hz.2)
  | .reset qs, _, hq, _ =>
    have h1 : Same [one p, .reset qs] (one p :: qs.map fun q => .reset [q]) :=
      same_of_run (run_append_congr (a := [one p]) (b := [.reset qs]) rfl (run_reset qs))
    have h3 : Same ((qs.map fun q => .reset [q]) ++ [one p]) ([.reset qs] ++ [one p]) :=
      same_of_run (run_append_congr (run_reset qs).symm rfl)
    refine (h1.trans (pass_list (fun q => .reset [q]) (fun _ => trivial) _ fun a ha => ?_)).trans h3
    refine swap_reset ?_
    intro h
    exact hq (by rw [Op.acts, List.mem_toFinset, h]; exact ha)
  | .classic cond op, he, hq, hb =>
    refine fin _ fun c => ?_
    have hm : (measure1 p.1 p.2 c).mem = update c.mem p.2 (c.orc 0) := rfl
    rw [exec, exec, hm, hb]
    split_ifs
    · exact hun op he hq c
    · rfl

/-- A measurement past a list of operations. -/
theorem pass_ops {p : ℕ × ℕ} (l : List (Op ℝ)) (hs : ∀ e ∈ l, Steady e) (hq : ∀ e ∈ l, p.1 ∉ e.acts)
    (hb : ∀ e ∈ l, Ignores p.2 e) : Same (one p :: l) (l ++ [one p]) := by
  induction l with
  | nil => exact Same.refl _
  | cons e l ih =>
    have h1 : Same (one p :: e :: l) (e :: one p :: l) :=
      (pass_one (hs e (by simp)) (hq e (by simp)) (hb e (by simp))).append l
    exact h1.trans (Same.consOp (hs e (by simp)) (ih (fun e he => hs e (List.mem_cons_of_mem _ he))
      (fun e he => hq e (List.mem_cons_of_mem _ he)) fun e he => hb e (List.mem_cons_of_mem _ he)))

/-- Several measurements past a list of operations. -/
theorem pass_many (z : List (ℕ × ℕ)) (l : List (Op ℝ)) (hs : ∀ e ∈ l, Steady e)
    (hq : ∀ p ∈ z, ∀ e ∈ l, p.1 ∉ e.acts) (hb : ∀ p ∈ z, ∀ e ∈ l, Ignores p.2 e) :
    Same (z.map one ++ l) (l ++ z.map one) := by
  induction z with
  | nil => rw [List.map_nil, List.nil_append, List.append_nil]; exact Same.refl _
  | cons p z ih =>
    have h1 : Same (one p :: (z.map one ++ l)) (one p :: (l ++ z.map one)) :=
      Same.consOp (e := one p) trivial (ih (fun p hp => hq p (List.mem_cons_of_mem _ hp)) fun p hp => hb p (List.mem_cons_of_mem _ hp))
    have h2 := (pass_ops l hs (hq p (by simp)) (hb p (by simp))).append (z.map one)
    rw [List.append_assoc] at h2
    exact h1.trans h2

/-- The measurement or barrier `e` past a list of operations. -/
theorem pass_final {e : Op ℝ} (hm : isMB e) (hv : e.Valid) (l : List (Op ℝ)) (hs : ∀ e' ∈ l, Steady e')
    (hq : ∀ e' ∈ l, Disjoint e.acts e'.acts)
    (hb : ∀ qs cs, e = .measure qs cs → ∀ b ∈ cs, ∀ e' ∈ l, Ignores b e') : Same (e :: l) (l ++ [e]) := by
  match e, hm with
  | .measure qs cs, _ =>
    have h1 : Same ([.measure qs cs] ++ l) ((qs.zip cs).map one ++ l) :=
      same_of_run (run_append_congr (run_measure qs cs) rfl)
    have h3 : Same (l ++ (qs.zip cs).map one) (l ++ [.measure qs cs]) :=
      same_of_run (run_append_congr rfl (run_measure qs cs).symm)
    refine (h1.trans (pass_many _ l hs (fun p hp e' he' hc => ?_) fun p hp e' he' => ?_)).trans h3
    · have hz := List.of_mem_zip (a := p.1) (b := p.2) hp
      exact Finset.disjoint_left.1 (hq e' he') (by rw [Op.acts, List.mem_toFinset]; exact hz.1) hc
    · exact hb qs cs rfl _ (List.of_mem_zip (a := p.1) (b := p.2) hp).2 e' he'
  | .std o, hm =>
    have hbar : o.type = .barrier := hm.resolve_left (by
      intro h
      obtain ⟨-, f, hf⟩ := hv
      rcases StdOp.denote_cases hf with ⟨hb, -⟩ | ⟨hg, -⟩ | ⟨hs, q, M, h1, h2, -⟩ | ⟨h2', -⟩
      · rw [Op.type] at h; rw [h] at hb; cases hb
      · rw [Op.type] at h; rw [h] at hg; cases hg
      · rw [Op.type] at h; rw [h] at h2; cases h2
      · rw [Op.type] at h; rw [h] at h2'; exact absurd h2' (by decide))
    have hid : ∀ c, exec (.std o) c = some c := by
      intro c
      rw [exec, StdOp.denote_barrier hbar]; rfl
    refine same_of_run ?_
    funext c
    rw [run_cons, hid, Option.bind_some, run_append]
    cases run l c with
    | none => rfl
    | some d => rw [Option.bind_some, run_singleton, hid]
  | .compound _ _, hm => rcases hm with h | h <;> cases h
  | .reset _, hm => rcases hm with h | h <;> cases h
  | .classic _ _, hm => rcases hm with h | h <;> cases h

/-! ### Final operations of a list, from the front -/

section

variable {P : Type}

theorem fin_shift (o : Op P) (l : List (Op P)) (k : ℕ) : Fin (o :: l) (k + 1) ↔ Fin l k := by
  constructor
  · intro h
    generalize hk : k + 1 = k' at h
    induction h generalizing k with
    | mk k' e he hm ht later ih =>
      subst hk
      rw [List.getElem?_cons_succ] at he
      exact .mk k e he hm ht fun j e' hj he' hd =>
        ih (j + 1) e' (by omega) (by rw [List.getElem?_cons_succ]; exact he') hd j rfl
  · intro h
    induction h with
    | mk k e he hm ht later ih =>
      refine .mk (k + 1) e (by rw [List.getElem?_cons_succ]; exact he) hm ht fun j e' hj he' hd => ?_
      obtain ⟨j, rfl⟩ : ∃ i, j = i + 1 := ⟨j - 1, by omega⟩
      rw [List.getElem?_cons_succ] at he'
      exact ih j e' (by omega) he' hd

open Classical in
theorem filter_shift (o : Op P) (l : List (Op P)) (k : ℕ) (b : Bool) :
    ((l.zipIdx (k + 1)).filter fun p => decide (Fin (o :: l) p.2) = b).map Prod.fst =
      ((l.zipIdx k).filter fun p => decide (Fin (o :: l) (p.2 + 1)) = b).map Prod.fst := by
  have : ∀ (m : List (Op P)) k, (m.zipIdx (k + 1)) = (m.zipIdx k).map fun p => (p.1, p.2 + 1) := by
    intro m
    induction m with
    | nil => intro k; rfl
    | cons a m ih => intro k; rw [List.zipIdx_cons, List.zipIdx_cons, List.map_cons, ih]
  rw [this, List.filter_map, List.map_map]
  rfl

theorem keep_cons_fin {o : Op P} {l : List (Op P)} (h : Fin (o :: l) 0) : keep (o :: l) = keep l := by
  classical
  have := filter_shift o l 0 false
  simp only [decide_eq_false_iff_not, fin_shift] at this
  rw [keep, List.zipIdx_cons, List.filter_cons_of_neg (by simpa using h), this, keep]

theorem drop_cons_fin {o : Op P} {l : List (Op P)} (h : Fin (o :: l) 0) : drop (o :: l) = o :: drop l := by
  classical
  have := filter_shift o l 0 true
  simp only [decide_eq_true_eq, fin_shift] at this
  rw [drop, List.zipIdx_cons, List.filter_cons_of_pos (by simpa using h), List.map_cons, this, drop]

theorem keep_cons_not {o : Op P} {l : List (Op P)} (h : ¬ Fin (o :: l) 0) : keep (o :: l) = o :: keep l := by
  classical
  have := filter_shift o l 0 false
  simp only [decide_eq_false_iff_not, fin_shift] at this
  rw [keep, List.zipIdx_cons, List.filter_cons_of_pos (by simpa using h), List.map_cons, this, keep]

theorem drop_cons_not {o : Op P} {l : List (Op P)} (h : ¬ Fin (o :: l) 0) : drop (o :: l) = drop l := by
  classical
  have := filter_shift o l 0 true
  simp only [decide_eq_true_eq, fin_shift] at this
  rw [drop, List.zipIdx_cons, List.filter_cons_of_neg (by simpa using h), this, drop]

theorem mem_keep {e : Op P} {l : List (Op P)} (h : e ∈ keep l) : ∃ k, l[k]? = some e ∧ ¬ Fin l k := by
  classical
  rw [keep, List.mem_map] at h
  obtain ⟨p, hp, rfl⟩ := h
  rw [List.mem_filter] at hp
  exact ⟨p.2, List.mem_zipIdx_iff_getElem?.1 hp.1, by simpa using hp.2⟩

end

/-- No operation that stays reads or writes a bit an earlier final measurement writes. -/
def BitsFree (ops : List (Op ℝ)) : Prop :=
  ∀ k j qs cs e, k < j → Fin ops k → ops[k]? = some (.measure qs cs) → ops[j]? = some e → ¬ Fin ops j →
    ∀ b ∈ cs, Ignores b e

theorem BitsFree.tail {o : Op ℝ} {l : List (Op ℝ)} (h : BitsFree (o :: l)) : BitsFree l := by
  intro k j qs cs e hkj hf hk hj hn
  exact h (k + 1) (j + 1) qs cs e (by omega) ((fin_shift o l k).2 hf) hk hj fun h' => hn ((fin_shift o l j).1 h')

/-- The final operations can be done last. -/
theorem same_keep_drop (ops : List (Op ℝ)) (hv : ∀ e ∈ ops, e.Valid) (hs : ∀ e ∈ ops, Steady e)
    (hu : ∀ e ∈ ops, e.usedQ = e.acts) (hb : BitsFree ops) : Same ops (keep ops ++ drop ops) := by
  induction ops with
  | nil => exact Same.refl _
  | cons o l ih =>
    have hl := ih (fun e he => hv e (List.mem_cons_of_mem _ he)) (fun e he => hs e (List.mem_cons_of_mem _ he))
      (fun e he => hu e (List.mem_cons_of_mem _ he)) hb.tail
    have h1 := Same.consOp (hs o (by simp)) hl
    by_cases hf : Fin (o :: l) 0
    · rw [keep_cons_fin hf, drop_cons_fin hf]
      refine h1.trans ?_
      have hf' := hf
      obtain ⟨_, e, he, hm, -, later⟩ := hf
      rw [List.getElem?_cons_zero] at he
      injection he with he
      subst he
      have hmk : ∀ e ∈ keep l, ∃ j, l[j]? = some e ∧ ¬ Fin (o :: l) (j + 1) := by
        intro e he
        obtain ⟨j, h2, h3⟩ := mem_keep he
        exact ⟨j, h2, fun h => h3 ((fin_shift o l j).1 h)⟩
      have h2 : Same (o :: keep l) (keep l ++ [o]) := by
        refine pass_final hm (hv o (by simp)) (keep l) (fun e he => ?_) (fun e he => ?_) ?_
        · obtain ⟨j, h2, -⟩ := hmk e he
          exact hs e (List.mem_cons_of_mem _ (List.mem_of_getElem? h2))
        · obtain ⟨j, h2, h3⟩ := hmk e he
          by_contra hd
          rw [← hu o (by simp), ← hu e (List.mem_cons_of_mem _ (List.mem_of_getElem? h2))] at hd
          exact h3 (later (j + 1) e (by omega) h2 hd)
        · intro qs cs hqs b hb' e he
          obtain ⟨j, h2, h3⟩ := hmk e he
          exact hb 0 (j + 1) qs cs e (by omega) hf' (by rw [hqs]; rfl) h2 h3 b hb'
      have h3 := h2.append (drop l)
      rw [List.append_assoc] at h3
      exact h3
    · rw [keep_cons_not hf, drop_cons_not hf]
      exact h1

end MQT.Opt.Final
