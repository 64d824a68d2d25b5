/-
Correctness of `removeDiagonalGatesBeforeMeasure` on circuits without compound operations whose
diagonal gates have a single target (and any number of controls).
-/
import Verif.Opt.RemoveDiagonal

set_option autoImplicit false
set_option linter.unusedSectionVars false

namespace MQT.Opt

open MQT.IR
open Function (update)

/-- A well-formed gate; if diagonal, with exactly one target. -/
structure GoodStd (o : StdOp ℝ) : Prop where
  wf : o.WF
  den : ∃ f, o.denote = some f
  one : o.type.isDiagonal = true → o.targets.length = 1
  inj : Set.InjOn Prod.fst (o.controls : Set Ctrl)

/-- The operations covered: no compound operations, no diagonal gate on several targets. -/
def Good : Op ℝ → Prop
  | .std o => GoodStd o
  | .compound _ _ => False
  | .measure qs cs => qs.length = cs.length
  | .reset _ => True
  | .classic _ (.std o) => GoodStd o
  | .classic _ (.measure _ _) => True
  | .classic _ (.reset _) => True
  | .classic _ (.compound _ _) => False
  | .classic _ (.classic _ _) => False

theorem Good.valid {e : Op ℝ} (h : Good e) : e.Valid := by
  match e with
  | .std o => rw [Op.Valid]; exact ⟨h.wf, h.den⟩
  | .compound _ _ => exact h.elim
  | .measure _ _ => rw [Op.Valid]; trivial
  | .reset _ => rw [Op.Valid]; trivial
  | .classic _ (.std o) => rw [Op.Valid, Op.Valid]; exact ⟨h.wf, h.den⟩
  | .classic _ (.measure _ _) => rw [Op.Valid, Op.Valid]; trivial
  | .classic _ (.reset _) => rw [Op.Valid, Op.Valid]; trivial
  | .classic _ (.compound _ _) => exact h.elim
  | .classic _ (.classic _ _) => exact h.elim

theorem Good.acts {e : Op ℝ} (h : Good e) : e.usedQ = e.acts := by
  apply Op.usedQ_plain
  match e with
  | .std o => rfl
  | .compound _ _ => exact h.elim
  | .measure _ _ => rfl
  | .reset _ => rfl
  | .classic _ (.std o) => rfl
  | .classic _ (.measure _ _) => rfl
  | .classic _ (.reset _) => rfl
  | .classic _ (.compound _ _) => exact h.elim
  | .classic _ (.classic _ _) => exact h.elim

mutual
theorem exec_total (e : Op ℝ) (hv : e.Valid) (c : Cfg) : ∃ r, exec e c = some r := by
  match e with
  | .std o =>
    rw [Op.Valid] at hv
    obtain ⟨-, f, hf⟩ := hv
    exact ⟨_, by rw [exec, hf]; rfl⟩
  | .compound ops b => rw [Op.Valid] at hv; rw [run_compound]; exact run_total ops hv c
  | .measure _ _ => exact ⟨_, by rw [exec]⟩
  | .reset _ => exact ⟨_, by rw [exec]⟩
  | .classic p e =>
    rw [Op.Valid] at hv
    rw [exec]
    split_ifs
    · exact exec_total e hv c
    · exact ⟨_, rfl⟩
theorem run_total (l : List (Op ℝ)) (hv : Op.ValidL l) (c : Cfg) : ∃ r, run l c = some r := by
  match l with
  | [] => exact ⟨_, run_nil c⟩
  | e :: l =>
    rw [Op.ValidL] at hv
    obtain ⟨r, h1⟩ := exec_total e hv.1 c
    obtain ⟨r', h2⟩ := run_total l hv.2 r
    exact ⟨r', by rw [run_cons, h1]; exact h2⟩
end

/-- The gate at stake: the operation itself, or the one it controls classically. -/
inductive GateOf : Op ℝ → StdOp ℝ → Prop
  | std (o) : GateOf (.std o) o
  | classic (p o) : GateOf (.classic p (.std o)) o

theorem GateOf.good {e : Op ℝ} {o : StdOp ℝ} (h : GateOf e o) (hg : Good e) : GoodStd o := by
  cases h <;> exact hg

theorem GateOf.used {e : Op ℝ} {o : StdOp ℝ} (h : GateOf e o) : e.usedQ = o.used := by
  cases h <;> rfl

theorem isI_valid {o : StdOp ℝ} (h : GoodStd o) (hd : o.type.isDiagonal = true) :
    GoodStd { o with type := .i } := by
  obtain ⟨q, hq⟩ := List.length_eq_one_iff.1 (h.one hd)
  refine ⟨⟨h.wf.nodup, h.wf.disj⟩, ?_, fun _ => h.one hd, h.inj⟩
  exact ⟨_, StdOp.denote_single_of (q := q) (M := mat1 1 0 0 1) rfl hq rfl⟩

theorem GateOf.kill_good {e : Op ℝ} {o : StdOp ℝ} (h : GateOf e o) (hg : Good e)
    (hd : o.type.isDiagonal = true) : Good (killOp e) := by
  cases h
  · exact isI_valid hg hd
  · exact isI_valid hg hd

theorem GateOf.kill_dead {e : Op ℝ} {o : StdOp ℝ} (h : GateOf e o) : dead (killOp e) = true := by
  cases h <;> rfl

theorem GateOf.kill_used {e : Op ℝ} {o : StdOp ℝ} (h : GateOf e o) : (killOp e).usedQ = e.usedQ := by
  cases h <;> rfl

theorem GateOf.kill_type {e : Op ℝ} {o : StdOp ℝ} (h : GateOf e o) (ht : e.type = .i) :
    (killOp e).type = .i := by
  cases h
  · rfl
  · cases ht

theorem GateOf.exec {e : Op ℝ} {o : StdOp ℝ} {f : State → State} (h : GateOf e o)
    (hf : o.denote = some f) (c : Cfg) : exec e c = some (c.mapSt f) ∨ exec e c = some c := by
  cases h
  · left; rw [MQT.Opt.exec, hf]; rfl
  · rw [MQT.Opt.exec]
    split_ifs
    · left; rw [MQT.Opt.exec, hf]; rfl
    · right; rfl

/-- The invariant of the recursion; `ops0` the original operations. -/
structure RInv (ops0 : List (Op ℝ)) (dag : ℕ → List ℕ) (S : RD ℝ) : Prop where
  good : ∀ e ∈ S.ops, Good e
  dagI : DagInv S.ops dag S.ops.length
  suf : ∀ q, S.its q <:+ dag q
  done : ∀ q, S.its q ≠ [] → ∃ m t, dag q = m :: t ∧ S.its q <:+ t ∧
    (∃ e, S.ops[m]? = some e ∧ measures q e) ∧
    ∀ k ∈ t, k ∉ S.its q → ∀ e, S.ops[k]? = some e → dead e = true
  sem : ∀ c, ∃ r r', run ops0 c = some r ∧ run S.ops c = some r' ∧ PhaseEq r' r

variable {ops0 : List (Op ℝ)} {dag : ℕ → List ℕ}

theorem RInv.rend {S : RD ℝ} (h : RInv ops0 dag S) (q : ℕ) :
    RInv ops0 dag { S with its := update S.its q [] } := by
  refine ⟨h.good, h.dagI, ?_, ?_, h.sem⟩
  · intro r
    by_cases e : r = q
    · subst e; simp
    · simp only [Function.update_of_ne e]; exact h.suf r
  · intro r hr
    by_cases e : r = q
    · subst e; simp at hr
    · simp only [Function.update_of_ne e] at hr ⊢; exact h.done r hr

theorem RInv.head_gt {S : RD ℝ} (h : RInv ops0 dag S) {q i k : ℕ} {t : List ℕ} (hq : S.its q = i :: t)
    (hk : k ∈ t) : k < i := by
  have hs := (h.dagI.sorted q).sublist (h.suf q).sublist
  rw [hq] at hs
  exact (List.pairwise_cons.1 hs).1 k hk

theorem RInv.head_op {S : RD ℝ} (h : RInv ops0 dag S) {q i : ℕ} {t : List ℕ} (hq : S.its q = i :: t) :
    ∃ e, S.ops[i]? = some e ∧ q ∈ e.usedQ :=
  (h.dagI.sound q i ((h.suf q).mem (by rw [hq]; simp))).2

theorem mem_after {α : Type} {A R : List α} {a e : α} (he : e ∈ R) :
    ∃ j, A.length < j ∧ (A ++ a :: R)[j]? = some e := by
  obtain ⟨m, hm, rfl⟩ := List.getElem_of_mem he
  refine ⟨A.length + 1 + m, by omega, ?_⟩
  rw [List.getElem?_append_right (by omega)]
  have : A.length + 1 + m - A.length = m + 1 := by omega
  rw [this, List.getElem?_cons_succ, List.getElem?_eq_getElem hm]

/-- Turning the gate at position `i` into the identity when every one of its qubits has reached it. -/
theorem RInv.kill {S : RD ℝ} (h : RInv ops0 dag S) {i : ℕ} {e : Op ℝ} {o : StdOp ℝ}
    (he : S.ops[i]? = some e) (hg : GateOf e o) (hd : o.type.isDiagonal = true)
    (hr : ∀ q ∈ e.usedQ, ∃ t, S.its q = i :: t) :
    RInv ops0 dag { S with ops := killAt i S.ops } := by
  have hi : i < S.ops.length := (List.getElem?_eq_some_iff.1 he).1
  have hset : killAt i S.ops = S.ops.set i (killOp e) := modify_eq_set he
  have hge : Good e := h.good e (List.mem_of_getElem? he)
  have hgood : ∀ e' ∈ S.ops.set i (killOp e), Good e' := by
    intro e' he'
    rcases List.mem_or_eq_of_mem_set he' with h1 | rfl
    · exact h.good e' h1
    · exact hg.kill_good hge hd
  refine ⟨by rw [hset]; exact hgood, ?_, h.suf, ?_, ?_⟩
  · rw [hset, List.length_set]
    refine ⟨h.dagI.sorted, ?_, ?_⟩
    · intro q j hj
      obtain ⟨h1, o2, h2, h3⟩ := h.dagI.sound q j hj
      refine ⟨h1, ?_⟩
      by_cases e' : i = j
      · subst e'
        rw [he] at h2; injection h2 with h2; subst h2
        exact ⟨_, List.getElem?_set_self hi, by rw [hg.kill_used]; exact h3⟩
      · exact ⟨o2, by rw [List.getElem?_set_ne e']; exact h2, h3⟩
    · intro j o2 hj h2 q hq
      by_cases e' : i = j
      · subst e'
        rw [List.getElem?_set_self hi] at h2
        injection h2 with h2; subst h2
        rw [hg.kill_used] at hq
        rcases h.dagI.complete i e hj he q hq with h3 | h3
        · exact Or.inl h3
        · exact Or.inr (hg.kill_type h3)
      · rw [List.getElem?_set_ne e'] at h2
        exact h.dagI.complete j o2 hj h2 q hq
  · intro q hq
    obtain ⟨m, t, h1, h2, ⟨em, h3, h4⟩, h5⟩ := h.done q hq
    refine ⟨m, t, h1, h2, ⟨em, ?_, h4⟩, ?_⟩
    · rw [hset, List.getElem?_set_ne]
      · exact h3
      · rintro rfl
        rw [he] at h3; injection h3 with h3; subst h3
        cases hg <;> exact h4
    · intro k hk hk' e' he'
      rw [hset] at he'
      by_cases hik : i = k
      · subst hik
        rw [List.getElem?_set_self hi] at he'
        injection he' with he'; subst he'
        exact hg.kill_dead
      · rw [List.getElem?_set_ne hik] at he'
        exact h5 k hk hk' e' he'
  · intro c
    obtain ⟨r, r', h1, h2, h3⟩ := h.sem c
    obtain ⟨A, R, hl, hA⟩ := split_at he
    have hset' : killAt i S.ops = A ++ killOp e :: R := by
      rw [hset, hl, List.set_append_right _ _ (by omega), hA, Nat.sub_self, List.set_cons_zero]
    have hvR : Op.ValidL R := by
      rw [Op.validL_iff]
      intro e' he'
      exact (h.good e' (by rw [hl]; simp [he'])).valid
    rw [hl, run_append] at h2
    cases hd1 : run A c with
    | none => rw [hd1] at h2; cases h2
    | some d1 =>
      rw [hd1, Option.bind_some, run_cons] at h2
      obtain ⟨f, hf⟩ := (hg.good hge).den
      have hnew : run (killAt i S.ops) c = run R d1 := by
        rw [hset', run_append, hd1, Option.bind_some, run_cons,
          exec_dead (hg.kill_good hge hd).valid hg.kill_dead, Option.bind_some]
      show ∃ r r', run ops0 c = some r ∧ run (killAt i S.ops) c = some r' ∧ PhaseEq r' r
      rw [hnew]
      rcases hg.exec hf d1 with h4 | h4
      · rw [h4, Option.bind_some] at h2
        obtain ⟨d, hph⟩ := phaseOn_denote hf hd (by rw [(hg.good hge).one hd])
        obtain ⟨r2, h5⟩ := run_total R hvR d1
        have hends : ∀ q ∈ o.used, Ends q d1.st R := by
          intro q hq
          obtain ⟨t, ht⟩ := hr q (by rw [hg.used]; exact hq)
          obtain ⟨m, t', e1, e2, ⟨em, e3, e4⟩, e5⟩ := h.done q (by rw [ht]; simp)
          have hs := h.dagI.sorted q
          rw [e1] at hs
          have hit : i ∈ t' := e2.mem (by rw [ht]; simp)
          have him : i < m := (List.pairwise_cons.1 hs).1 i hit
          obtain ⟨A', B, R', hl', hA', hB⟩ := split_two him he e3
          have hAA : A' = A ∧ R = B ++ em :: R' := by
            have := hl.symm.trans hl'
            have hlen : A.length = A'.length := by omega
            obtain ⟨x1, x2⟩ := List.append_inj this hlen
            injection x2 with _ x3
            exact ⟨x1.symm, x3⟩
          refine Or.inr ⟨B, em, R', hAA.2, e4, ?_⟩
          intro e' he' ha'
          -- position of e'
          have hpos : ∃ k, i < k ∧ k ≠ m ∧ S.ops[k]? = some e' := by
            rcases List.mem_append.1 he' with hb | hb
            · obtain ⟨j, x1, x2, x3⟩ := mem_between (A := A') (a := e) (b := em) (R := R') hb
              rw [← hl'] at x3
              exact ⟨j, by omega, by omega, x3⟩
            · obtain ⟨j, x1, x3⟩ := mem_after (A := A' ++ e :: B) (a := em) hb
              refine ⟨j, ?_, ?_, ?_⟩
              · simp only [List.length_append, List.length_cons] at x1; omega
              · simp only [List.length_append, List.length_cons] at x1; omega
              · rw [hl', ← x3]; simp
          obtain ⟨k, k1, k2, k3⟩ := hpos
          have hge' := h.good e' (List.mem_of_getElem? k3)
          rcases h.dagI.complete k e' (List.getElem?_eq_some_iff.1 k3).1 k3 q
            (by rw [hge'.acts]; exact ha') with x | x
          · rw [e1] at x
            rcases List.mem_cons.1 x with x | x
            · exact absurd x k2
            · refine e5 k x ?_ e' k3
              intro hmem
              rw [ht] at hmem
              rcases List.mem_cons.1 hmem with y | y
              · omega
              · have := h.head_gt ht y; omega
          · cases e' with
            | std s => exact decide_eq_true x
            | _ => cases x
        obtain ⟨r3, h6, h7⟩ := phase_tail hph R hvR d1 hends h5
        rw [h6] at h2
        injection h2 with h2
        subst h2
        exact ⟨r, r2, h1, h5, h7.symm.trans h3⟩
      · rw [h4, Option.bind_some] at h2
        exact ⟨r, r', h1, h2, h3⟩

/-- Advancing past a dead operation. -/
theorem advance_correct {i : ℕ} {ed : Op ℝ} (l : List ℕ) (hn : l.Nodup) {S S' : RD ℝ}
    (h : RInv ops0 dag S) (hed : S.ops[i]? = some ed) (hdd : dead ed = true)
    (hr : ∀ q ∈ l, ∃ t, S.its q = i :: t) (ha : advance l S = .ok S') :
    RInv ops0 dag S' ∧ S'.ops = S.ops ∧ (∀ q, S'.its q <:+ S.its q) ∧
      ∀ q, q ∉ l → S'.its q = S.its q := by
  induction l generalizing S with
  | nil =>
    rw [advance] at ha
    injection ha with ha
    subst ha
    exact ⟨h, rfl, fun q => List.suffix_refl _, fun _ _ => rfl⟩
  | cons q l ih =>
    obtain ⟨t, ht⟩ := hr q (by simp)
    rw [advance, ht] at ha
    simp only at ha
    rw [List.nodup_cons] at hn
    have h1 : RInv ops0 dag { S with its := update S.its q t } := by
      refine ⟨h.good, h.dagI, ?_, ?_, h.sem⟩
      · intro r
        by_cases e : r = q
        · subst e
          simp only [Function.update_self]
          exact (List.suffix_cons i t).trans (ht ▸ h.suf r)
        · simp only [Function.update_of_ne e]; exact h.suf r
      · intro r hr'
        by_cases e : r = q
        · subst e
          simp only [Function.update_self] at hr' ⊢
          obtain ⟨m, t', e1, e2, e3, e5⟩ := h.done r (by rw [ht]; simp)
          refine ⟨m, t', e1, (List.suffix_cons i t).trans (ht ▸ e2), e3, ?_⟩
          intro k hk hk' e' he'
          by_cases hik : k = i
          · subst hik
            rw [hed] at he'; injection he' with he'; subst he'; exact hdd
          · refine e5 k hk ?_ e' he'
            rw [ht]
            intro hm
            rcases List.mem_cons.1 hm with y | y
            · exact hik y
            · exact hk' y
        · simp only [Function.update_of_ne e] at hr' ⊢; exact h.done r hr'
    obtain ⟨a1, a2, a3, a4⟩ := ih hn.2 h1 hed (by
      intro r hr'
      have : r ≠ q := by rintro rfl; exact hn.1 hr'
      simp only [Function.update_of_ne this]
      exact hr r (List.mem_cons_of_mem _ hr')) ha
    refine ⟨a1, a2, ?_, ?_⟩
    · intro r
      refine (a3 r).trans ?_
      by_cases e : r = q
      · subst e
        simp only [Function.update_self]
        rw [ht]; exact List.suffix_cons i t
      · simp only [Function.update_of_ne e]; exact List.suffix_refl _
    · intro r hr'
      rw [a4 r (fun x => hr' (List.mem_cons_of_mem _ x))]
      exact Function.update_of_ne (fun e => hr' (by rw [e]; simp)) _ _

/-- What the recursive calls guarantee. -/
structure RecOk (ops0 : List (Op ℝ)) (dag : ℕ → List ℕ)
    (R : ℕ → Option ℕ → RD ℝ → Res (RD ℝ)) : Prop where
  inv : ∀ {q g S S'}, RInv ops0 dag S → R q g S = .ok S' →
    RInv ops0 dag S' ∧ ∀ r, S'.its r <:+ S.its r
  goal : ∀ {q j S S'}, RInv ops0 dag S → R q (some j) S = .ok S' →
    S'.its q = [] ∨ ∃ t, S'.its q = j :: t
  frame : ∀ {q j S S'}, RInv ops0 dag S → R q (some j) S = .ok S' → S'.its q ≠ [] →
    (∀ r, (∀ i t, S.its r = i :: t → i ≤ j) → S'.its r = S.its r) ∧
    ∀ k ≤ j, S'.ops[k]? = S.ops[k]?

variable {R : ℕ → Option ℕ → RD ℝ → Res (RD ℝ)}

theorem checkLines_inv (hR : RecOk ops0 dag R) {idx : ℕ} (l : List (ℕ × Bool)) {S : RD ℝ} {r : Bool × RD ℝ}
    (h : RInv ops0 dag S) (hc : checkLines R idx l S = .ok r) :
    RInv ops0 dag r.2 ∧ ∀ q, r.2.its q <:+ S.its q := by
  induction l generalizing S with
  | nil =>
    rw [checkLines] at hc
    injection hc with hc
    subst hc
    exact ⟨h, fun q => List.suffix_refl _⟩
  | cons p l ih =>
    obtain ⟨q, neg⟩ := p
    rw [checkLines] at hc
    by_cases h1 : q = idx
    · rw [if_pos h1] at hc; exact ih h hc
    rw [if_neg h1] at hc
    by_cases h2 : neg = true
    · rw [if_pos h2] at hc
      injection hc with hc
      subst hc
      refine ⟨h.rend q, fun s => ?_⟩
      by_cases e : s = q
      · subst e; simp
      · simp only [Function.update_of_ne e]; exact List.suffix_refl _
    rw [if_neg h2] at hc
    by_cases h3 : S.its q = []
    · rw [if_pos h3] at hc
      injection hc with hc
      subst hc
      exact ⟨h, fun q => List.suffix_refl _⟩
    rw [if_neg h3] at hc
    cases hidx : S.its idx with
    | nil => rw [hidx] at hc; cases hc
    | cons j t =>
      rw [hidx] at hc
      simp only at hc
      cases hrr : R q (some j) S with
      | ub => rw [hrr] at hc; cases hc
      | throws => rw [hrr] at hc; cases hc
      | fuel => rw [hrr] at hc; cases hc
      | ok S1 =>
        rw [hrr, Res.bind] at hc
        obtain ⟨i1, i2⟩ := hR.inv h hrr
        cases ha : S1.its q with
        | nil => rw [ha] at hc; cases hc
        | cons a ta =>
          cases hb : S1.its idx with
          | nil => rw [ha, hb] at hc; cases hc
          | cons b tb =>
            rw [ha, hb] at hc
            simp only at hc
            by_cases hab : a ≠ b
            · rw [if_pos hab] at hc
              injection hc with hc
              subst hc
              exact ⟨i1, i2⟩
            · rw [if_neg hab] at hc
              obtain ⟨j1, j2⟩ := ih i1 hc
              exact ⟨j1, fun r => (j2 r).trans (i2 r)⟩

theorem checkLines_true (hR : RecOk ops0 dag R) {idx i : ℕ} {t : List ℕ} (l : List (ℕ × Bool))
    {S S' : RD ℝ} (h : RInv ops0 dag S) (hidx : S.its idx = i :: t)
    (hc : checkLines R idx l S = .ok (true, S')) :
    (∀ r, (∀ k u, S.its r = k :: u → k ≤ i) → S'.its r = S.its r) ∧
    (∀ k ≤ i, S'.ops[k]? = S.ops[k]?) ∧
    ∀ p ∈ l, p.1 ≠ idx → ∃ u, S'.its p.1 = i :: u := by
  induction l generalizing S t with
  | nil =>
    rw [checkLines] at hc
    injection hc with hc
    injection hc with _ hc
    subst hc
    exact ⟨fun _ _ => rfl, fun _ _ => rfl, fun p hp => by simp at hp⟩
  | cons p l ih =>
    obtain ⟨q, neg⟩ := p
    rw [checkLines] at hc
    by_cases h1 : q = idx
    · rw [if_pos h1] at hc
      obtain ⟨x1, x2, x3⟩ := ih h hidx hc
      refine ⟨x1, x2, fun p hp hne => ?_⟩
      rcases List.mem_cons.1 hp with rfl | hp
      · exact absurd h1 hne
      · exact x3 p hp hne
    rw [if_neg h1] at hc
    by_cases h2 : neg = true
    · rw [if_pos h2] at hc
      injection hc with hc
      cases hc
    rw [if_neg h2] at hc
    by_cases h3 : S.its q = []
    · rw [if_pos h3] at hc
      injection hc with hc
      cases hc
    rw [if_neg h3, hidx] at hc
    simp only at hc
    cases hrr : R q (some i) S with
    | ub => rw [hrr] at hc; cases hc
    | throws => rw [hrr] at hc; cases hc
    | fuel => rw [hrr] at hc; cases hc
    | ok S1 =>
      rw [hrr, Res.bind] at hc
      obtain ⟨i1, i2⟩ := hR.inv h hrr
      cases ha : S1.its q with
      | nil => rw [ha] at hc; cases hc
      | cons a ta =>
        cases hb : S1.its idx with
        | nil => rw [ha, hb] at hc; cases hc
        | cons b tb =>
          rw [ha, hb] at hc
          simp only at hc
          by_cases hab : a ≠ b
          · rw [if_pos hab] at hc
            injection hc with hc
            cases hc
          · rw [if_neg hab] at hc
            have hab : a = b := not_not.1 hab
            obtain ⟨f1, f2⟩ := hR.frame h hrr (by rw [ha]; simp)
            have hid : S1.its idx = S.its idx := f1 idx (by
              intro k u hk; rw [hidx] at hk; injection hk with hk; omega)
            rw [hid, hidx] at hb
            injection hb with hb1 hb2
            obtain ⟨x1, x2, x3⟩ := ih i1 (hid.trans hidx) hc
            have hframe : ∀ r, (∀ k u, S.its r = k :: u → k ≤ i) → S'.its r = S.its r := by
              intro r hr
              rw [x1 r (by rw [f1 r hr]; exact hr), f1 r hr]
            refine ⟨hframe, fun k hk => by rw [x2 k hk, f2 k hk], ?_⟩
            intro p hp hne
            rcases List.mem_cons.1 hp with rfl | hp
            · refine ⟨ta, ?_⟩
              rw [x1 q (by intro k u hk; rw [ha] at hk; injection hk with hk; omega), ha]
              congr 1; omega
            · exact x3 p hp hne

theorem sortedCtrls_coe (cs : Finset Ctrl) : (sortedCtrls cs : Multiset Ctrl) = cs.val := by
  obtain ⟨⟨l⟩, h⟩ := cs
  exact Quot.sound (List.perm_insertionSort ctrlLE l)

theorem mem_sortedCtrls {cs : Finset Ctrl} {c : Ctrl} : c ∈ sortedCtrls cs ↔ c ∈ cs := by
  rw [← Finset.mem_val, ← sortedCtrls_coe, Multiset.mem_coe]

theorem sortedCtrls_nodup (cs : Finset Ctrl) : (sortedCtrls cs).Nodup := by
  have := cs.nodup
  rwa [← sortedCtrls_coe, Multiset.coe_nodup] at this

theorem lines_nodup {o : StdOp ℝ} (h : GoodStd o) :
    ((sortedCtrls o.controls).map Prod.fst ++ o.targets).Nodup := by
  rw [List.nodup_append]
  refine ⟨?_, h.wf.nodup, ?_⟩
  · refine List.Nodup.map_on ?_ (sortedCtrls_nodup _)
    intro x hx y hy hxy
    exact h.inj (mem_sortedCtrls.1 hx) (mem_sortedCtrls.1 hy) hxy
  · intro a ha b hb hab
    subst hab
    rw [List.mem_map] at ha
    obtain ⟨c, hc, rfl⟩ := ha
    exact h.wf.disj _ hb (Finset.mem_image_of_mem _ (mem_sortedCtrls.1 hc))

theorem mem_lines {o : StdOp ℝ} {q : ℕ} :
    q ∈ (sortedCtrls o.controls).map Prod.fst ++ o.targets ↔ q ∈ o.used := by
  rw [List.mem_append, StdOp.mem_used, or_comm]
  refine or_congr Iff.rfl ?_
  rw [List.mem_map, ctrlQubits, Finset.mem_image]
  simp only [mem_sortedCtrls]

theorem suffix_nil_of {α : Type} {l l' : List α} (h : l <:+ l') (h' : l' = []) : l = [] := by
  subst h'; exact List.suffix_nil.1 h

/-- `removeDiagonalGate` on the gate `o` of the operation `e` at position `i`. -/
theorem removeGate_correct (hR : RecOk ops0 dag R) {idx i : ℕ} {t : List ℕ} {S : RD ℝ}
    {r : Bool × RD ℝ} {e : Op ℝ} {o : StdOp ℝ} (h : RInv ops0 dag S) (hidx : S.its idx = i :: t)
    (he : S.ops[i]? = some e) (hg : GateOf e o)
    (hc : removeGate R idx (.std o) (killAt i) S = .ok r) :
    RInv ops0 dag r.2 ∧ (∀ q, r.2.its q <:+ S.its q) ∧ (r.1 = false → r.2.its idx = []) ∧
    (r.1 = true →
      (∀ q, (∀ k u, S.its q = k :: u → k ≤ i) → r.2.its q = S.its q) ∧
      (∀ k < i, r.2.ops[k]? = S.ops[k]?) ∧ (∃ ed, r.2.ops[i]? = some ed ∧ dead ed = true) ∧
      ∀ q ∈ o.used, ∃ u, r.2.its q = i :: u) := by
  have hge : Good e := h.good e (List.mem_of_getElem? he)
  have hgs := hg.good hge
  obtain ⟨e', he', hqu⟩ := h.head_op hidx
  rw [he] at he'; injection he' with he'; subst he'
  have rendSuf : ∀ (S' : RD ℝ) q, update S'.its idx [] q <:+ S'.its q := by
    intro S' q
    by_cases hq : q = idx
    · subst hq; simp
    · rw [Function.update_of_ne hq]
  have killed : ∀ {S' : RD ℝ}, S'.ops[i]? = some e →
      ∃ ed, (killAt i S'.ops)[i]? = some ed ∧ dead ed = true := by
    intro S' hS'
    refine ⟨killOp e, ?_, hg.kill_dead⟩
    rw [killAt, modify_eq_set hS', List.getElem?_set_self (List.getElem?_eq_some_iff.1 hS').1]
  have killedNe : ∀ {S' : RD ℝ}, S'.ops[i]? = some e → ∀ k < i, (killAt i S'.ops)[k]? = S'.ops[k]? := by
    intro S' hS' k hk
    rw [killAt, modify_eq_set hS', List.getElem?_set_ne (by omega)]
  rw [removeGate] at hc
  by_cases hd : (Op.std o).type.isDiagonal = false
  · rw [if_pos hd] at hc
    injection hc with hc
    subst hc
    exact ⟨h.rend idx, rendSuf S, fun _ => Function.update_self _ _ _, fun hf => by cases hf⟩
  rw [if_neg hd] at hc
  have hd' : o.type.isDiagonal = true := by
    cases hx : o.type.isDiagonal with
    | false => exact absurd hx hd
    | true => rfl
  by_cases hcs : ctrlsOf (Op.std o) = []
  · rw [if_pos hcs] at hc
    injection hc with hc
    subst hc
    have hcs' : sortedCtrls o.controls = [] := hcs
    obtain ⟨q0, hq0⟩ := List.length_eq_one_iff.1 (hgs.one hd')
    have hused : ∀ q ∈ o.used, q = idx := by
      have hidxu : idx ∈ o.used := by rw [← hg.used]; exact hqu
      have key : ∀ q ∈ o.used, q = q0 := by
        intro q hq
        rw [← mem_lines, hcs', hq0] at hq
        simpa using hq
      intro q hq
      rw [key q hq, key idx hidxu]
    have hall : ∀ q ∈ o.used, ∃ u, S.its q = i :: u := by
      intro q hq; rw [hused q hq]; exact ⟨t, hidx⟩
    exact ⟨h.kill he hg hd' (by rw [hg.used]; exact hall), fun q => List.suffix_refl _,
      fun hf => (by cases hf), fun _ => ⟨fun _ _ => rfl, killedNe he, killed he, hall⟩⟩
  · rw [if_neg hcs] at hc
    cases hc1 : checkLines R idx ((ctrlsOf (Op.std o)).map fun c => (c.1, !c.2)) S with
    | ub => rw [hc1] at hc; cases hc
    | throws => rw [hc1] at hc; cases hc
    | fuel => rw [hc1] at hc; cases hc
    | ok r1 =>
      rw [hc1, Res.bind] at hc
      obtain ⟨i1, m1⟩ := checkLines_inv hR _ h hc1
      cases hc2 : checkLines R idx ((tgtsOf (Op.std o)).map fun q => (q, false)) r1.2 with
      | ub => rw [hc2] at hc; cases hc
      | throws => rw [hc2] at hc; cases hc
      | fuel => rw [hc2] at hc; cases hc
      | ok r2 =>
        rw [hc2, Res.bind] at hc
        obtain ⟨i2, m2⟩ := checkLines_inv hR _ i1 hc2
        by_cases hb : (r1.1 && r2.1) = true
        · rw [if_pos hb] at hc
          injection hc with hc
          subst hc
          rw [Bool.and_eq_true] at hb
          obtain ⟨b1, S1⟩ := r1
          obtain ⟨b2, S2⟩ := r2
          obtain ⟨rfl, rfl⟩ := hb
          obtain ⟨f1, o1, p1⟩ := checkLines_true hR _ h hidx hc1
          have hidx1 : S1.its idx = i :: t := by
            rw [f1 idx (by intro k u hk; rw [hidx] at hk; injection hk with hk; omega), hidx]
          obtain ⟨f2, o2, p2⟩ := checkLines_true hR _ i1 hidx1 hc2
          simp only at f2 o2 p2
          have hframe : ∀ q, (∀ k u, S.its q = k :: u → k ≤ i) → S2.its q = S.its q := by
            intro q hq
            rw [f2 q (by rw [f1 q hq]; exact hq), f1 q hq]
          have heS2 : S2.ops[i]? = some e := by rw [o2 i le_rfl, o1 i le_rfl, he]
          have hall : ∀ q ∈ o.used, ∃ u, S2.its q = i :: u := by
            intro q hq
            by_cases hqi : q = idx
            · subst hqi
              exact ⟨t, by rw [f2 q (by intro k u hk; rw [hidx1] at hk; injection hk with hk; omega),
                hidx1]⟩
            · rw [← mem_lines, List.mem_append] at hq
              rcases hq with hq | hq
              · rw [List.mem_map] at hq
                obtain ⟨c, hc, rfl⟩ := hq
                obtain ⟨u, hu⟩ := p1 (c.1, !c.2) (List.mem_map.2 ⟨c, hc, rfl⟩) hqi
                refine ⟨u, ?_⟩
                rw [f2 c.1 (by intro k u' hk; simp only at hu; rw [hu] at hk; injection hk with hk; omega)]
                exact hu
              · exact p2 (q, false) (List.mem_map.2 ⟨q, hq, rfl⟩) hqi
          refine ⟨i2.kill heS2 hg hd' (by rw [hg.used]; exact hall),
            fun q => (m2 q).trans (m1 q), fun hf => (by cases hf), fun _ => ⟨hframe, ?_, killed heS2, hall⟩⟩
          intro k hk
          simp only
          rw [killedNe heS2 k hk, o2 k hk.le, o1 k hk.le]
        · rw [if_neg hb] at hc
          injection hc with hc
          subst hc
          exact ⟨i2.rend idx, fun q => (rendSuf r2.2 q).trans ((m2 q).trans (m1 q)),
            fun _ => Function.update_self _ _ _, fun hf => by cases hf⟩

/-- One round of the loop. -/
theorem removeStep_correct (hR : RecOk ops0 dag R) {n idx i : ℕ} {t : List ℕ} {S S' : RD ℝ}
    (h : RInv ops0 dag S) (hidx : S.its idx = i :: t) (hs : removeStep n R idx i S = .ok S') :
    RInv ops0 dag S' ∧ (∀ q, S'.its q <:+ S.its q) ∧
    (S'.its idx ≠ [] → ∀ j < i, (∀ q, (∀ k u, S.its q = k :: u → k ≤ j) → S'.its q = S.its q) ∧
      ∀ k ≤ j, S'.ops[k]? = S.ops[k]?) := by
  obtain ⟨e, he, hqu⟩ := h.head_op hidx
  have hge : Good e := h.good e (List.mem_of_getElem? he)
  rw [removeStep, he] at hs
  have rendCase : Res.ok { S with its := update S.its idx [] } = Res.ok S' →
      RInv ops0 dag S' ∧ (∀ q, S'.its q <:+ S.its q) ∧
      (S'.its idx ≠ [] → ∀ j < i, (∀ q, (∀ k u, S.its q = k :: u → k ≤ j) → S'.its q = S.its q) ∧
        ∀ k ≤ j, S'.ops[k]? = S.ops[k]?) := by
    intro hs
    injection hs with hs
    subst hs
    refine ⟨h.rend idx, ?_, fun hne => absurd (Function.update_self _ _ _) hne⟩
    intro q
    by_cases hq : q = idx
    · subst hq; simp
    · simp only [Function.update_of_ne hq]; exact List.suffix_refl _
  have gateCase : ∀ o, GateOf e o →
      ((removeGate R idx (.std o) (killAt i) S).bind fun r =>
        if r.1 then advance ((ctrlsOf (.std o)).map Prod.fst ++ o.targets) r.2 else .ok r.2) = .ok S' →
      RInv ops0 dag S' ∧ (∀ q, S'.its q <:+ S.its q) ∧
      (S'.its idx ≠ [] → ∀ j < i, (∀ q, (∀ k u, S.its q = k :: u → k ≤ j) → S'.its q = S.its q) ∧
        ∀ k ≤ j, S'.ops[k]? = S.ops[k]?) := by
    intro o hg hs
    cases hr : removeGate R idx (.std o) (killAt i) S with
    | ub => rw [hr] at hs; cases hs
    | throws => rw [hr] at hs; cases hs
    | fuel => rw [hr] at hs; cases hs
    | ok r =>
      rw [hr, Res.bind] at hs
      obtain ⟨i1, m1, rf, rt⟩ := removeGate_correct hR h hidx he hg hr
      by_cases hb : r.1 = true
      · rw [if_pos hb] at hs
        obtain ⟨f1, o1, ⟨ed, hed, hdd⟩, hall⟩ := rt hb
        obtain ⟨a1, a2, a3, a4⟩ := advance_correct _ (lines_nodup (hg.good hge)) i1 hed hdd
          (fun q hq => hall q (mem_lines.1 hq)) hs
        refine ⟨a1, fun q => (a3 q).trans (m1 q), fun _ j hj => ⟨fun q hq => ?_, fun k hk => ?_⟩⟩
        · have hfr := f1 q fun k u hk => by have := hq k u hk; omega
          rw [a4 q, hfr]
          intro hql
          obtain ⟨u, hu⟩ := hall q (mem_lines.1 hql)
          rw [hfr] at hu
          have := hq i u hu
          omega
        · rw [a2, o1 k (by omega)]
      · rw [if_neg hb] at hs
        injection hs with hs
        subst hs
        exact ⟨i1, m1, fun hne => absurd (rf (by simpa using hb)) hne⟩
  match e, hge, he, hqu, hs with
  | .std o, hge, he, hqu, hs => exact gateCase o (.std o) hs
  | .compound _ _, hge, _, _, _ => exact hge.elim
  | .measure _ _, _, _, _, hs => exact rendCase hs
  | .reset _, _, _, _, hs => exact rendCase hs
  | .classic p (.std o), hge, he, hqu, hs => exact gateCase o (.classic p o) hs
  | .classic _ (.measure _ _), _, _, _, hs =>
    exact rendCase (by simpa [removeGate, Op.type, Res.bind, show OpType.measure.isDiagonal = false from rfl] using hs)
  | .classic _ (.reset _), _, _, _, hs =>
    exact rendCase (by simpa [removeGate, Op.type, Res.bind, show OpType.reset.isDiagonal = false from rfl] using hs)
  | .classic _ (.compound _ _), hge, _, _, _ => exact hge.elim
  | .classic _ (.classic _ _), hge, _, _, _ => exact hge.elim

/-- The recursion, for every amount of fuel. -/
theorem removeRec_ok (n f : ℕ) : RecOk ops0 dag (removeRec n f) := by
  induction f with
  | zero =>
    refine ⟨fun _ h => ?_, fun _ h => ?_, fun _ h => ?_⟩ <;> (rw [removeRec] at h; cases h)
  | succ f ih =>
    have hinv : ∀ {q g S S'}, RInv ops0 dag S → removeRec n (f + 1) q g S = .ok S' →
        RInv ops0 dag S' ∧ ∀ r, S'.its r <:+ S.its r := by
      intro q g S S' h hr
      rw [removeRec] at hr
      cases hq : S.its q with
      | nil =>
        rw [hq] at hr
        simp only at hr
        split_ifs at hr
        · exact ih.inv h hr
        · injection hr with hr
          subst hr
          exact ⟨h, fun r => List.suffix_refl _⟩
      | cons i t =>
        rw [hq] at hr
        simp only at hr
        by_cases hg : g = some i
        · rw [if_pos hg] at hr
          injection hr with hr
          subst hr
          exact ⟨h, fun r => List.suffix_refl _⟩
        · rw [if_neg hg] at hr
          cases hs : removeStep n (removeRec n f) q i S with
          | ub => rw [hs] at hr; cases hr
          | throws => rw [hs] at hr; cases hr
          | fuel => rw [hs] at hr; cases hr
          | ok S1 =>
            rw [hs, Res.bind] at hr
            obtain ⟨a1, a2, -⟩ := removeStep_correct ih h hq hs
            obtain ⟨b1, b2⟩ := ih.inv a1 hr
            exact ⟨b1, fun r => (b2 r).trans (a2 r)⟩
    refine ⟨hinv, ?_, ?_⟩
    · intro q j S S' h hr
      have hm := (hinv h hr).2 q
      rw [removeRec] at hr
      cases hq : S.its q with
      | nil => rw [hq] at hm; exact Or.inl (List.suffix_nil.1 hm)
      | cons i t =>
        rw [hq] at hr
        simp only at hr
        by_cases hg : some j = some i
        · rw [if_pos hg] at hr
          injection hr with hr
          subst hr
          injection hg with hg
          exact Or.inr ⟨t, by rw [hq, hg]⟩
        · rw [if_neg hg] at hr
          cases hs : removeStep n (removeRec n f) q i S with
          | ub => rw [hs] at hr; cases hr
          | throws => rw [hs] at hr; cases hr
          | fuel => rw [hs] at hr; cases hr
          | ok S1 =>
            rw [hs, Res.bind] at hr
            obtain ⟨a1, a2, -⟩ := removeStep_correct ih h hq hs
            exact ih.goal a1 hr
    · intro q j S S' h hr hne
      have hm := (hinv h hr).2 q
      rw [removeRec] at hr
      cases hq : S.its q with
      | nil => rw [hq] at hm; exact absurd (List.suffix_nil.1 hm) hne
      | cons i t =>
        rw [hq] at hr
        simp only at hr
        by_cases hg : some j = some i
        · rw [if_pos hg] at hr
          injection hr with hr
          subst hr
          exact ⟨fun _ _ => rfl, fun _ _ => rfl⟩
        · rw [if_neg hg] at hr
          cases hs : removeStep n (removeRec n f) q i S with
          | ub => rw [hs] at hr; cases hr
          | throws => rw [hs] at hr; cases hr
          | fuel => rw [hs] at hr; cases hr
          | ok S1 =>
            rw [hs, Res.bind] at hr
            obtain ⟨a1, a2, a3⟩ := removeStep_correct ih h hq hs
            have hmq := (ih.inv a1 hr).2 q
            have hS1 : S1.its q ≠ [] := fun e => hne (suffix_nil_of hmq e)
            obtain ⟨u, hu⟩ := (ih.goal a1 hr).resolve_left hne
            have hji : j < i := by
              have : j ∈ S.its q := hm.mem (by rw [hu]; simp)
              rw [hq] at this
              rcases List.mem_cons.1 this with rfl | hx
              · exact absurd rfl hg
              · exact h.head_gt hq hx
            obtain ⟨c1, c2⟩ := a3 hS1 j hji
            obtain ⟨d1, d2⟩ := ih.frame a1 hr hne
            exact ⟨fun r hr' => by rw [d1 r (by rw [c1 r hr']; exact hr'), c1 r hr'],
              fun k hk => by rw [d2 k hk, c2 k hk]⟩

/-! ### The whole pass -/

theorem dagFrom_inv {n : ℕ} {ops : List (Op ℝ)} (l : List (Op ℝ)) (k : ℕ) {dag dag' : ℕ → List ℕ}
    (hl : ∀ j, l[j]? = ops[k + j]?) (hk : k + l.length = ops.length) (h : DagInv ops dag k)
    (hd : dagFrom n k l dag = some dag') : DagInv ops dag' ops.length := by
  induction l generalizing k dag with
  | nil =>
    rw [dagFrom] at hd
    injection hd with hd
    subst hd
    rw [← hk]; exact h
  | cons e l ih =>
    rw [dagFrom, addToDag] at hd
    split_ifs at hd
    · rw [Option.bind_some] at hd
      refine ih (k + 1) ?_ (by simp only [List.length_cons] at hk; omega) (h.add (o := e) ?_) hd
      · intro j
        have := hl (j + 1)
        rw [List.getElem?_cons_succ] at this
        rw [this]; congr 1; omega
      · have := hl 0
        simpa using this.symm
    · cases hd

theorem init_inv {n : ℕ} {ops : List (Op ℝ)} {dag : ℕ → List ℕ} (hg : ∀ e ∈ ops, Good e)
    (hd : constructDAG n ops = some dag) : RInv ops dag { ops := ops, its := initIts ops dag } := by
  have hD : DagInv ops dag ops.length :=
    dagFrom_inv ops 0 (by simp) (by simp) DagInv.init hd
  refine ⟨hg, hD, ?_, ?_, ?_⟩
  · intro q
    simp only [initIts]
    split
    · simp
    · rename_i k t hk
      split_ifs
      · exact hk ▸ List.suffix_cons k t
      · simp
  · intro q hq
    simp only [initIts] at hq ⊢
    cases hk : dag q with
    | nil => rw [hk] at hq; simp at hq
    | cons k t =>
      rw [hk] at hq
      simp only at hq
      by_cases hm : isMeasureAt ops k = true
      · rw [if_pos hm] at hq
        simp only
        rw [if_pos hm]
        refine ⟨k, t, rfl, List.suffix_refl _, ?_, fun j hj hj' => absurd hj hj'⟩
        obtain ⟨-, e, he, hu⟩ := hD.sound q k (by rw [hk]; simp)
        refine ⟨e, he, ?_⟩
        have hge := hg e (List.mem_of_getElem? he)
        rw [isMeasureAt, he] at hm
        have hty : e.type = .measure := of_decide_eq_true hm
        have hstd : ∀ o : StdOp ℝ, GoodStd o → o.type ≠ .measure := by
          intro o ho ht
          obtain ⟨f, hf⟩ := ho.den
          rcases StdOp.denote_cases hf with ⟨hb, -⟩ | ⟨hb, -⟩ | ⟨hb, -⟩ | ⟨hb, -⟩
          · rw [ht] at hb; cases hb
          · rw [ht] at hb; cases hb
          · rw [ht] at hb; exact absurd hb (by decide)
          · rw [ht] at hb; exact absurd hb (by decide)
        match e, hge, hty, hu with
        | .std o, hge, hty, _ => exact absurd hty (hstd o hge)
        | .compound _ _, hge, _, _ => exact hge.elim
        | .measure qs cs, hge, _, hu =>
          rw [Op.usedQ] at hu
          exact ⟨List.mem_toFinset.1 hu, hge⟩
        | .reset _, _, hty, _ => cases hty
        | .classic _ _, _, hty, _ => cases hty
      · rw [if_neg hm] at hq; exact absurd rfl hq
  · intro c
    obtain ⟨r, hr⟩ := run_total ops ((Op.validL_iff ops).2 fun e he => (hg e he).valid) c
    exact ⟨r, r, hr, hr, PhaseEq.refl r⟩

theorem removeDiagonal_correct {fuel n : ℕ} {ops ops' : List (Op ℝ)} (hg : ∀ e ∈ ops, Good e)
    (h : removeDiagonal fuel n ops = .ok ops') (c : Cfg) :
    ∃ r r', run ops c = some r ∧ run ops' c = some r' ∧ PhaseEq r' r := by
  rw [removeDiagonal] at h
  cases hd : constructDAG n ops with
  | none => rw [hd] at h; cases h
  | some dag =>
    rw [hd] at h
    simp only at h
    cases hr : removeRec n fuel 0 none { ops := ops, its := initIts ops dag } with
    | ub => rw [hr] at h; cases h
    | throws => rw [hr] at h; cases h
    | fuel => rw [hr] at h; cases h
    | ok S =>
      rw [hr, Res.bind] at h
      injection h with h
      subst h
      have hI := ((removeRec_ok n fuel).inv (init_inv hg hd) hr).1
      obtain ⟨r, r', h1, h2, h3⟩ := hI.sem c
      refine ⟨r, r', h1, ?_, h3⟩
      rw [run_removeIdentities, run_strip ((Op.validL_iff _).2 fun e he => (hI.good e he).valid)]
      · exact h2
      · intro e he
        have := hI.good e he
        cases e with
        | compound _ _ => exact this.elim
        | _ => trivial

end MQT.Opt
