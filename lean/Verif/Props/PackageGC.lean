import Verif.Memory.PackageGC

/-! C14: garbage collection and compute tables. -/

namespace MQT.PGC

set_option autoImplicit false

/-- Specification: the address was reclaimed between two states. -/
def Reclaimed (s s' : P) (k : Kind) (a : Nat) : Prop := a ∈ s.stored k ∧ a ∉ s'.stored k

/-- Entries mention only what their type allows. -/
def Typed (s : P) : Prop := ∀ t, ∀ e ∈ s.cache t, ∀ x ∈ e, x.1 ∈ t.kinds

/-- Specification: some entry of the table mentions a reclaimed node or number. -/
def Stale (s s' : P) (t : Tbl) : Prop := ∃ e ∈ s'.cache t, ∃ x ∈ e, Reclaimed s s' x.1 x.2

theorem gc_cases (s : P) (force : Bool) :
    ∃ rv rm rd rc : Bool,
      (rv = false → (s.garbageCollect force).1.stored .v = s.stored .v) ∧
      (rm = false → (s.garbageCollect force).1.stored .m = s.stored .m) ∧
      (rd = false → (s.garbageCollect force).1.stored .d = s.stored .d) ∧
      (rc = false → (s.garbageCollect force).1.stored .c = s.stored .c) ∧
      ((s.garbageCollect force).2 = (rv || rm || rc)) ∧
      ∀ t, (s.garbageCollect force).1.cache t =
        if (rv = true ∧ t ∈ [Tbl.vectorAdd, .vectorInnerProduct, .vectorKronecker, .matrixVectorMultiplication]) ∨
          (rm = true ∧ t ∈ [Tbl.matrixAdd, .conjugateMatrixTranspose, .matrixKronecker,
            .matrixTrace, .matrixVectorMultiplication, .matrixMatrixMultiplication,
            .stochasticNoiseOperationCache]) ∨
          (rd = true ∧ t ∈ [Tbl.densityAdd, .densityDensityMultiplication, .densityNoise, .densityTrace]) ∨
          (rc = true ∧ t ∈ [Tbl.matrixVectorMultiplication, .matrixMatrixMultiplication,
            .conjugateMatrixTranspose, .vectorInnerProduct, .vectorKronecker, .matrixKronecker, .matrixTrace,
            .stochasticNoiseOperationCache, .densityAdd, .densityDensityMultiplication, .densityNoise,
            .densityTrace])
        then [] else s.cache t := by
  unfold P.garbageCollect
  split
  · exact ⟨false, false, false, false, fun _ => rfl, fun _ => rfl, fun _ => rfl, fun _ => rfl, rfl, by simp⟩
  · simp only
    generalize hc : s.collect .c force = pc
    generalize hf : (if pc.2 > 0 then true else force) = f
    generalize hv : pc.1.collect .v f = pv
    generalize hm : pv.1.collect .m f = pm
    generalize hd : pm.1.collect .d f = pd
    have cc : pd.1.cache = s.cache := by
      rw [← hd, collect_cache, ← hm, collect_cache, ← hv, collect_cache, ← hc, collect_cache]
    have ov : pd.1.stored .v = pv.1.stored .v := by
      rw [← hd, collect_other _ _ _ _ (by decide), ← hm, collect_other _ _ _ _ (by decide)]
    have om : pd.1.stored .m = pm.1.stored .m := by
      rw [← hd, collect_other _ _ _ _ (by decide)]
    have oc : pd.1.stored .c = pc.1.stored .c := by
      rw [← hd, collect_other _ _ _ _ (by decide), ← hm, collect_other _ _ _ _ (by decide),
        ← hv, collect_other _ _ _ _ (by decide)]
    have bv : pc.1.stored .v = s.stored .v := by rw [← hc, collect_other _ _ _ _ (by decide)]
    have bm : pv.1.stored .m = s.stored .m := by
      rw [← hv, collect_other _ _ _ _ (by decide), ← hc, collect_other _ _ _ _ (by decide)]
    have bd : pm.1.stored .d = s.stored .d := by
      rw [← hm, collect_other _ _ _ _ (by decide), ← hv, collect_other _ _ _ _ (by decide),
        ← hc, collect_other _ _ _ _ (by decide)]
    have zv : ¬ pv.2 > 0 → pv.1.stored .v = s.stored .v := by
      intro h; rw [← bv, ← hv]; exact collect_zero _ _ _ (by rw [hv]; exact h)
    have zm : ¬ pm.2 > 0 → pm.1.stored .m = s.stored .m := by
      intro h; rw [← bm, ← hm]; exact collect_zero _ _ _ (by rw [hm]; exact h)
    have zd : ¬ pd.2 > 0 → pd.1.stored .d = s.stored .d := by
      intro h; rw [← bd, ← hd]; exact collect_zero _ _ _ (by rw [hd]; exact h)
    have zc : ¬ pc.2 > 0 → pc.1.stored .c = s.stored .c := by
      intro h; rw [← hc]; exact collect_zero _ _ _ (by rw [hc]; exact h)
    refine ⟨decide (pv.2 > 0), decide (pm.2 > 0), decide (pd.2 > 0), decide (pc.2 > 0), ?_, ?_, ?_, ?_, rfl, ?_⟩
    · intro h
      rw [← zv (by simpa using h), ← ov]
      split <;> split <;> split <;> split <;> simp only [clearAll_stored]
    · intro h
      rw [← zm (by simpa using h), ← om]
      split <;> split <;> split <;> split <;> simp only [clearAll_stored]
    · intro h
      rw [← zd (by simpa using h)]
      split <;> split <;> split <;> split <;> simp only [clearAll_stored]
    · intro h
      rw [← zc (by simpa using h), ← oc]
      split <;> split <;> split <;> split <;> simp only [clearAll_stored]
    · intro t
      by_cases h1 : pc.2 > 0 <;> by_cases h2 : pd.2 > 0 <;> by_cases h3 : pm.2 > 0 <;>
        by_cases h4 : pv.2 > 0 <;>
        simp only [h1, h2, h3, h4, if_true, if_false, clearAll_cache, cc, decide_true, decide_false,
          true_and, false_and, or_false, false_or, Bool.false_eq_true] <;>
        cases t <;> simp

/-- **C14.** For every package state (whose entries respect the C++ types) and after every collection, no
compute table other than `conjugateVector`, `vectorAddMagnitudes` and `matrixAddMagnitudes` holds an
entry that mentions a reclaimed node (or a reclaimed real number). For those three tables the claim is
false, see `c14_stale_conjugateVector`, `c14_stale_addMagnitudes`. -/
theorem c14_no_stale_entries_partial (s : P) (ht : Typed s) (force : Bool) (t : Tbl)
    (h : t ∉ [Tbl.conjugateVector, .vectorAddMagnitudes, .matrixAddMagnitudes]) :
    ¬ Stale s (s.garbageCollect force).1 t := by
  obtain ⟨rv, rm, rd, rc, hv, hm, hd, hc, -, hcache⟩ := gc_cases s force
  rintro ⟨e, he, x, hx, hr1, hr2⟩
  rw [hcache t] at he
  split at he
  · simp at he
  · rename_i hn
    have hk := ht t e he x hx
    obtain ⟨k, a⟩ := x
    have key : ∀ k', (s.garbageCollect force).1.stored k' = s.stored k' → k ≠ k' := by
      rintro k' h1 rfl; exact hr2 (h1 ▸ hr1)
    have kv : k = .v → rv = true := by
      intro h1; cases rv with | true => rfl | false => exact absurd h1 (key _ (hv rfl))
    have km : k = .m → rm = true := by
      intro h1; cases rm with | true => rfl | false => exact absurd h1 (key _ (hm rfl))
    have kd : k = .d → rd = true := by
      intro h1; cases rd with | true => rfl | false => exact absurd h1 (key _ (hd rfl))
    have kc : k = .c → rc = true := by
      intro h1; cases rc with | true => rfl | false => exact absurd h1 (key _ (hc rfl))
    cases t <;> simp_all [Tbl.kinds]

/-- `clearComputeTables` empties every table. -/
theorem c14_clearComputeTables (s : P) (t : Tbl) : s.clearComputeTables.cache t = [] := by
  unfold P.clearComputeTables
  rw [clearAll_cache]
  cases t <;> simp

/-- Collecting a vector node leaves stale entries in `conjugateVector`. -/
theorem c14_stale_conjugateVector :
    let s : P := ⟨fun k => if k = .v then [7] else [], fun _ _ => 0, fun _ => 0,
      fun t => if t = .conjugateVector then [[(.v, 7), (.v, 7)]] else []⟩
    Typed s ∧ Stale s (s.garbageCollect true).1 .conjugateVector := by
  refine ⟨?_, [(.v, 7), (.v, 7)], by decide, (.v, 7), by decide, by decide, by decide⟩
  intro t e he x hx
  cases t <;> simp_all [Tbl.kinds]

/-- Collecting nodes leaves stale entries in `vectorAddMagnitudes` and `matrixAddMagnitudes`. -/
theorem c14_stale_addMagnitudes :
    let s : P := ⟨fun k => if k = .v then [7] else if k = .m then [8] else [], fun _ _ => 0, fun _ => 0,
      fun t => if t = .vectorAddMagnitudes then [[(.v, 7)]] else
        if t = .matrixAddMagnitudes then [[(.m, 8)]] else []⟩
    Typed s ∧ Stale s (s.garbageCollect true).1 .vectorAddMagnitudes ∧
      Stale s (s.garbageCollect true).1 .matrixAddMagnitudes := by
  refine ⟨?_, ⟨[(.v, 7)], by decide, (.v, 7), by decide, by decide, by decide⟩,
    ⟨[(.m, 8)], by decide, (.m, 8), by decide, by decide, by decide⟩⟩
  intro t e he x hx
  cases t <;> simp_all [Tbl.kinds]

/-- The return value does not report collected density-matrix nodes. -/
theorem c14_return_ignores_density :
    let s : P := ⟨fun k => if k = .d then [7] else [], fun _ _ => 0, fun _ => 0, fun _ => []⟩
    Reclaimed s (s.garbageCollect true).1 .d 7 ∧ (s.garbageCollect true).2 = false :=
  ⟨⟨by decide, by decide⟩, by decide⟩

/-- A concrete state meeting the hypotheses: a matrix node dies, its product entry is dropped, the
entry for a density product stays. -/
example :
    let s : P := ⟨fun k => if k = .m then [1, 2] else [], fun _ a => a - 1, fun _ => 0,
      fun t => if t = .matrixMatrixMultiplication then [[(.m, 1), (.m, 2)]] else
        if t = .densityDensityMultiplication then [[(.d, 4)]] else []⟩
    (s.garbageCollect true).1.stored .m = [2] ∧
    (s.garbageCollect true).1.cache .matrixMatrixMultiplication = [] ∧
    (s.garbageCollect true).1.cache .densityDensityMultiplication = [[(.d, 4)]] := by decide

end MQT.PGC
