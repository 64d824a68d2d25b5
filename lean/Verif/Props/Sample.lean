/-
Sampling measurement outcomes (C89).
-/
import Verif.Sim.SampleProof
import Verif.Props.Sim

set_option autoImplicit false

noncomputable section

open Classical
open Function (update)
open Complex (normSq)

namespace MQT.Sim

open MQT.IR MQT.DD MQT.Opt

/-! ### Writing outcomes to bits -/

theorem writeAll_not {z : Bits} {l : List (ℕ × ℕ)} {b : ℕ} (h : b ∉ l.map Prod.snd) (m : Bits) : writeAll z l m b = m b := by
  induction l generalizing m with
  | nil => rfl
  | cons p l ih =>
    simp only [List.map_cons, List.mem_cons, not_or] at h
    show writeAll z l (update m p.2 (z p.1)) b = m b
    rw [ih h.2, Function.update_of_ne h.1]

theorem writeAll_mem {z : Bits} {l : List (ℕ × ℕ)} (hn : (l.map Prod.snd).Nodup) {q b : ℕ} (h : (q, b) ∈ l) (m : Bits) :
    writeAll z l m b = z q := by
  induction l generalizing m with
  | nil => simp at h
  | cons p l ih =>
    simp only [List.map_cons, List.nodup_cons] at hn
    show writeAll z l (update m p.2 (z p.1)) b = z q
    rcases List.mem_cons.1 h with h | h
    · subst h
      rw [writeAll_not hn.1, Function.update_self]
    · exact ih hn.2 h _

theorem writeAll_perm {z : Bits} {l l' : List (ℕ × ℕ)} (hp : l.Perm l') (hn : (l.map Prod.snd).Nodup) (m : Bits) :
    writeAll z l m = writeAll z l' m := by
  funext b
  have hn' : (l'.map Prod.snd).Nodup := (hp.map _).nodup_iff.1 hn
  by_cases h : b ∈ l.map Prod.snd
  · obtain ⟨⟨q, b'⟩, h1, rfl⟩ := List.mem_map.1 h
    rw [writeAll_mem hn h1, writeAll_mem hn' (hp.mem_iff.1 h1)]
  · rw [writeAll_not h, writeAll_not fun h' => h ((hp.map _).mem_iff.2 h')]

theorem mapSet_perm {m : Perm} {k : ℕ} (h : k ∉ m.map Prod.fst) (v : ℕ) : (mapSet m k v).Perm ((k, v) :: m) := by
  induction m with
  | nil => exact List.Perm.refl _
  | cons p m ih =>
    obtain ⟨k', v'⟩ := p
    simp only [List.map_cons, List.mem_cons, not_or] at h
    rw [mapSet]
    split_ifs with h1 h2
    · exact List.Perm.refl _
    · exact absurd h2 h.1
    · exact ((ih h.2).cons _).trans (List.Perm.swap _ _ _)

theorem mapSet_foldl {l m : Perm} (h : ((l ++ m).map Prod.fst).Nodup) :
    (l.foldl (fun m p => mapSet m p.1 p.2) m).Perm (l ++ m) := by
  induction l generalizing m with
  | nil => exact List.Perm.refl _
  | cons p l ih =>
    have h1 : p.1 ∉ m.map Prod.fst := by
      simp only [List.cons_append, List.map_cons, List.nodup_cons, List.map_append, List.mem_append, not_or] at h
      exact h.1.2
    have hp : (l ++ mapSet m p.1 p.2).Perm (p :: l ++ m) :=
      ((mapSet_perm h1 p.2).append_left l).trans List.perm_middle
    rw [List.foldl_cons]
    exact (ih ((hp.map _).nodup_iff.2 h)).trans hp

theorem lookup_of_mem {l : Perm} (hn : (l.map Prod.fst).Nodup) {k v : ℕ} (h : (k, v) ∈ l) : l.lookup k = some v := by
  induction l with
  | nil => simp at h
  | cons p l ih =>
    obtain ⟨k', v'⟩ := p
    simp only [List.map_cons, List.nodup_cons] at hn
    rcases List.mem_cons.1 h with h' | h'
    · cases h'
      simp [List.lookup]
    · have : k ≠ k' := by
        rintro rfl
        exact hn.1 (List.mem_map.2 ⟨(k, v), h', rfl⟩)
      rw [List.lookup_cons, ih hn.2 h', beq_false_of_ne this]

theorem goodL_of {D : ℕ → Prop} (l : List (Op ℝ)) (h : ∀ o ∈ l, Good D o) : GoodL D l := by
  induction l with
  | nil => rw [GoodL]; trivial
  | cons o l ih => rw [GoodL]; exact ⟨h o (by simp), ih fun o ho => h o (by simp [ho])⟩

/-! ### Circuits -/

/-- A circuit that can be sampled: its operations have a meaning and act on the `n` qubits and `ncb`
classical bits, its layouts are one to one. -/
structure Qc.Ok (C : Qc) (σ : Equiv.Perm ℕ) : Prop where
  ops : ∀ o ∈ C.ops, DGood C.n C.ncb o
  init : LayN C.n C.init σ
  keys : (C.out.map Prod.fst).Nodup
  vals : (C.out.map Prod.snd).Nodup
  rng : ∀ p ∈ C.out, p.1 < C.n ∧ p.2 < C.n

/-- Measuring the final state of a circuit with measurements at the end. -/
theorem static_E {C : Qc} {σ : Equiv.Perm ℕ} (hC : C.Ok σ) {us ms : List (Op ℝ)} (ho : C.ops = us ++ ms)
    (hu : ∀ o ∈ us, isUni o = true) (hm : ∀ o ∈ ms, isMeas o = true) {e : VEdge} {ψ : State} (he : Holds C.n σ e ψ)
    {eps : ℝ} (heps : 0 ≤ eps) (shots : ℕ) (x : List Bool → ℂ) :
    ∃ (f : State → State) (τ : Equiv.Perm ℕ), ActsL us f ∧ (∀ p ∈ C.out, τ p.1 = p.2) ∧ (∀ q < C.n, τ q < C.n) ∧
      (sample C e shots eps).E (genR x) =
        (sumB C.n (fun z => (normSq (f ψ z) : ℂ) *
          valOf C ⟨false, !ms.isEmpty, true, (pairsOf ms).foldl (fun m p => mapSet m p.1 p.2) []⟩ x (str C.n (z ∘ τ.symm)))
          fun _ => false) ^ shots := by
  have hgu : GoodL (· < C.n) us := goodL_of us fun o hou => by
    have h1 := hC.ops o (by rw [ho]; simp [hou])
    match o, hu o hou with
    | .std _, _ => exact h1
    | .compound _ _, _ => exact h1
  have hgm : ∀ o ∈ ms, DGood C.n C.ncb o := fun o hom => hC.ops o (by rw [ho]; simp [hom])
  obtain ⟨e', f, τ, h1, h2, h3, h4, h5, h6, h7⟩ := simulate_spec (D := (· < C.n)) (V := (· < C.n)) (fun v hv => hv) 0 hgu
    ⟨hC.init.nodup, hC.init.ext, hC.init.dom, hC.init.rng, fun _ _ => rfl⟩ hC.keys hC.vals hC.rng he.can ψ
    (fun z => by rw [he.vec])
  have hvec : e'.vec = ren τ (f ψ) := by
    funext z
    rw [h7]
    have : (⟨Real.cos 0, Real.sin 0⟩ : ℂ) = 1 := by
      rw [Real.cos_zero, Real.sin_zero]; rfl
    rw [this, one_mul]
  have hnf : nrm C.n (f ψ) = nrm C.n ψ := nrm_actsL us hgu ⟨ψ, fun _ => false, fun _ => false⟩ _ (h3 _)
  have hn : normSq e'.w = 1 := by
    rw [← nrm_vec h2, hvec, nrm_ren h6, hnf, ← nrm_ren (fun q hq => LayN.lt hC.init hq), ← he.vec, nrm_vec he.can, he.nrm]
  refine ⟨f, τ, h3, h4, h6, ?_⟩
  have hA := sumB_ren h6 fun z => (normSq (f ψ z) : ℂ) *
          valOf C ⟨false, !ms.isEmpty, true, (pairsOf ms).foldl (fun m p => mapSet m p.1 p.2) []⟩ x (str C.n (z ∘ τ.symm))
  have hid : ∀ z : Bits, (z ∘ τ) ∘ τ.symm = z := by intro z; funext k; simp
  simp only [hid] at hA
  rw [← hA]
  unfold sample
  rw [bindR_lift, ho, scan_static us ms hu hm hgm]
  unfold onRes
  simp only [Bool.not_true, Bool.or_self, Bool.false_eq_true, if_false]
  rw [bindR_lift, finalState_eq, ho, filter_static hu hm, h1]
  unfold onRes
  simp only
  rw [bindR_E]
  have hl := shotLoop_E (shot := measureAllR e' eps)
    (x := valOf C ⟨false, !ms.isEmpty, true, (pairsOf ms).foldl (fun m p => mapSet m p.1 p.2) []⟩ x)
    (A := sumB C.n (fun z => (normSq (f ψ (z ∘ τ)) : ℂ) *
          valOf C ⟨false, !ms.isEmpty, true, (pairsOf ms).foldl (fun m p => mapSet m p.1 p.2) []⟩ x (str C.n z)) fun _ => false)
    (F := onRes (fun c => liftR (convCounts C ⟨false, !ms.isEmpty, true, (pairsOf ms).foldl (fun m p => mapSet m p.1 p.2) []⟩ c [])) (genR x))
    (fun k F hF => by
      rw [measureAllR_E h2 hn heps hF, sumB_eq, sumB_eq, Finset.mul_sum]
      refine Finset.sum_congr rfl fun t _ => ?_
      rw [hvec]
      show (normSq (f ψ _) : ℂ) * _ = _
      ring)
    (fun c hc => by
      show genR x _ = _
      rw [convCounts_gen C _ x c hc]
      simp [gen])
    shots [] (by intro e he; simp at he)
  rw [hl]
  simp [gen]

/-- **C89 (mid-circuit measurements; partial).** In a circuit with resets, conditioned operations or
gates after measurements, the numbers of shots with the various classical memories have exactly the
multinomial distribution of independent runs of the circuit: their generating polynomial (one
variable per string) is the average of the variable over one run, to the power of the number of
shots.  Missing from C89: nothing in this case. -/
theorem c89_dynamic_partial {C : Qc} {σ : Equiv.Perm ℕ} (hC : C.Ok σ) (hd : ¬ Static C.ops) {e : VEdge} {ψ : State}
    (he : Holds C.n σ e ψ) {eps : ℝ} (heps : 0 ≤ eps) (shots : ℕ) (x : List Bool → ℂ) :
    (sample C e shots eps).E (genR x) = average C.n C.ops ψ (fun m => x (str C.ncb m)) ^ shots := by
  obtain ⟨s, h1, -, -, h2⟩ := scan_dynamic C.ops hC.ops {} rfl
  have hdyn : (s.dyn || !s.last) = true := by
    rcases h2 rfl hd with h | h <;> simp [h]
  unfold sample
  rw [bindR_lift, h1]
  unfold onRes
  simp only
  rw [if_pos hdyn, shotLoop_E (x := x) (A := average C.n C.ops ψ fun m => x (str C.ncb m)) ?_ (fun c _ => rfl) shots []
    (by intro e he; simp at he)]
  · simp [gen]
  · intro k F hF
    rw [bindR_E]
    rw [dynLoop_E heps (x := fun m => k * x (str C.ncb m)) ?_ C.ops C.init σ e ψ _ hC.ops hC.init he]
    · unfold wt average
      rw [← sumO_mul]
      congr 1
      funext o
      cases run C.ops ⟨ψ, fun _ => false, o⟩ with
      | none => simp [weigh]
      | some c => simp only [weigh]; ring
    · intro m
      show F (.ok (shotStr C.ncb m)) = _
      rw [shotStr_eq, hF]

/-- **C89 (measurements at the end; partial).** The same for circuits whose measurements come last,
if no qubit is measured twice and no bit is written twice.  Missing from C89: qubits measured twice and
bits written twice, see `c89_qubit_twice` and `c89_bit_twice`. -/
theorem c89_static_partial {C : Qc} {σ : Equiv.Perm ℕ} (hC : C.Ok σ) (hr : C.noCregs = false) {us ms : List (Op ℝ)}
    (ho : C.ops = us ++ ms) (hu : ∀ o ∈ us, isUni o = true) (hm : ∀ o ∈ ms, isMeas o = true) (hne : ms ≠ [])
    (hq : ((pairsOf ms).map Prod.fst).Nodup) (hb : ((pairsOf ms).map Prod.snd).Nodup)
    (hout : ∀ p ∈ pairsOf ms, p.1 ∈ C.out.map Prod.fst) {e : VEdge} {ψ : State}
    (he : Holds C.n σ e ψ) {eps : ℝ} (heps : 0 ≤ eps) (shots : ℕ) (x : List Bool → ℂ) :
    (sample C e shots eps).E (genR x) = average C.n C.ops ψ (fun m => x (str C.ncb m)) ^ shots := by
  obtain ⟨f, τ, h1, h2, h3, h4⟩ := static_E hC ho hu hm he heps shots x
  rw [h4]
  congr 1
  show _ = wt C.n (fun m => x (str C.ncb m)) C.ops ψ fun _ => false
  rw [ho, wt_actsL _ _ us ms hu h1, wt_measures _ _ ms hm]
  congr 1
  funext z
  congr 1
  have hperm := mapSet_foldl (l := pairsOf ms) (m := []) (by rwa [List.append_nil])
  rw [List.append_nil] at hperm
  have hbits : ∀ p ∈ pairsOf ms, p.2 < C.ncb := by
    have key : ∀ ms : List (Op ℝ), (∀ o ∈ ms, isMeas o = true) → (∀ o ∈ ms, DGood C.n C.ncb o) →
        ∀ p ∈ pairsOf ms, p.2 < C.ncb := by
      intro ms
      induction ms with
      | nil => intro _ _ p hp; simp [pairsOf] at hp
      | cons o ms ih =>
        intro hm hg p hp
        match o, hm o (by simp), hg o (by simp) with
        | .measure qs cs, _, hd =>
          rw [pairsOf] at hp
          rcases List.mem_append.1 hp with hp | hp
          · exact hd.2.2 _ (List.of_mem_zip hp).2
          · exact ih (fun o ho => hm o (by simp [ho])) (fun o ho => hg o (by simp [ho])) p hp
    exact key ms hm fun o hom => hC.ops o (by rw [ho]; simp [hom])
  have hconv : conv C ⟨false, !ms.isEmpty, true, (pairsOf ms).foldl (fun m p => mapSet m p.1 p.2) []⟩ (str C.n (z ∘ τ.symm))
      = .ok (str C.ncb (writeAll z (pairsOf ms) fun _ => false)) := by
    unfold conv
    have hhas : (!ms.isEmpty) = true := by
      cases ms with
      | nil => exact absurd rfl hne
      | cons _ _ => rfl
    simp only [hr, hhas, if_true, Bool.false_eq_true, if_false]
    rw [str_zero, convMeas_str (z := z), writeAll_perm hperm ((hperm.map _).nodup_iff.2 hb)]
    intro p hp
    rw [hperm.mem_iff] at hp
    refine ⟨hbits p hp, ?_⟩
    obtain ⟨⟨q, i⟩, k1, k2⟩ := List.mem_map.1 (hout p hp)
    refine ⟨i, (hC.rng _ k1).2, ?_, ?_⟩
    · rw [← k2]
      exact lookup_of_mem hC.keys k1
    · have := h2 _ k1
      simp only at this
      rw [← k2, ← this]
      simp
  unfold valOf
  rw [hconv]

/-- **C89 (no measurements; partial).** In a circuit without measurements all qubits are measured at
the end, if qubits are not exchanged by the output permutation.  Missing from C89: other output
permutations, see `c89_output_twice`. -/
theorem c89_no_measurements_partial {C : Qc} {σ : Equiv.Perm ℕ} (hC : C.Ok σ) (hu : ∀ o ∈ C.ops, isUni o = true)
    (hid : ∀ p ∈ C.out, p.1 = p.2) (hnb : C.noCregs = true ∨ C.n ≤ C.ncb) {e : VEdge} {ψ : State}
    (he : Holds C.n σ e ψ) {eps : ℝ} (heps : 0 ≤ eps) (shots : ℕ) (x : List Bool → ℂ) :
    (sample C e shots eps).E (genR x) =
      averageAll C.n C.ops ψ (fun z => x (str (if C.noCregs then C.n else C.ncb)
        fun b => if b ∈ C.out.map Prod.snd then z b else false)) ^ shots := by
  obtain ⟨f, τ, h1, h2, h3, h4⟩ := static_E hC (ms := []) (by simp) hu (by simp) he heps shots x
  rw [h4]
  congr 1
  unfold averageAll
  rw [h1]
  simp only
  congr 1
  funext z
  congr 1
  have hnb' : ∀ p ∈ C.out, p.2 < (if C.noCregs = true then C.n else C.ncb) ∧ p.1 < C.n := by
    intro p hp
    have := hC.rng p hp
    refine ⟨?_, this.1⟩
    split_ifs with h
    · exact this.2
    · rcases hnb with h' | h'
      · exact absurd h' h
      · omega
  unfold valOf conv
  simp only [List.isEmpty_nil, Bool.not_true, Bool.false_eq_true, if_false]
  rw [str_zero, convOut_str _ hnb']
  simp only
  congr 2
  funext b
  by_cases hb : b ∈ C.out.map Prod.snd
  · rw [if_pos hb]
    obtain ⟨⟨q, b'⟩, k1, rfl⟩ := List.mem_map.1 hb
    rw [writeAll_mem hC.vals k1]
    have k2 := h2 _ k1
    have k3 := hid _ k1
    simp only at k2 k3
    subst k3
    show z (τ.symm q) = z q
    rw [(Equiv.symm_apply_eq τ).2 k2.symm]
  · rw [if_neg hb, writeAll_not hb]

/-! ### No failures -/

theorem E_const {α : Type} (p : Rand α) (c : ℂ) : p.E (fun _ => c) = c := by
  induction p with
  | done a => rfl
  | draw k ih => simp [Rand.E, ih]

theorem average_one {n ncb : ℕ} {ops : List (Op ℝ)} (hg : ∀ o ∈ ops, DGood n ncb o) {p : Perm} {σ : Equiv.Perm ℕ}
    (hl : LayN n p σ) {e : VEdge} {ψ : State} (he : Holds n σ e ψ) : average n ops ψ (fun _ => 1) = 1 := by
  have := dynLoop_E le_rfl (F := fun _ => 1) (x := fun _ => 1) (fun _ => rfl) ops p σ e ψ (fun _ => false) hg hl he
  rw [E_const] at this
  exact this.symm

/-- **C89 (no failures; partial).** Under the conditions of `c89_dynamic_partial`, sampling fails with
probability zero: one is the probability that there is a result.  Missing from C89: as there. -/
theorem c89_total_partial {C : Qc} {σ : Equiv.Perm ℕ} (hC : C.Ok σ) (hd : ¬ Static C.ops) {e : VEdge} {ψ : State}
    (he : Holds C.n σ e ψ) {eps : ℝ} (heps : 0 ≤ eps) (shots : ℕ) :
    (sample C e shots eps).E (fun r => match r with | .ok _ => 1 | _ => 0) = 1 := by
  have := c89_dynamic_partial hC hd he heps shots fun _ => 1
  rw [average_one hC.ops hC.init he, one_pow] at this
  refine Eq.trans ?_ this
  congr 1
  funext r
  cases r with
  | ok c => simp [genR, gen]
  | throw => rfl
  | ub => rfl

/-! ### Circuits that begin with an X gate -/

/-- Only qubit 0 is set. -/
def one0 : Bits := fun q => decide (q = 0)

/-- The state where all qubits are 0. -/
def zeros (n : ℕ) : VEdge := collapsed n fun _ => false

theorem zeros_holds {n : ℕ} : Holds n 1 (zeros n) (zeros n).vec := by
  obtain ⟨h1, h2⟩ := collapsed_spec n fun _ => false
  refine ⟨h1, ?_, rfl⟩
  rw [zeros, ← nrm_vec h1]
  unfold nrm
  have : (fun z => normSq ((collapsed n fun _ => false).vec z)) = fun z => if ∀ q < n, (fun _ => false : Bits) q = z q then (1 : ℝ) else 0 := by
    funext z
    rw [h2]
    have : (∀ q < n, z q = false) ↔ ∀ q < n, (fun _ => false : Bits) q = z q := by
      constructor <;> exact fun h q hq => (h q hq).symm
    by_cases h : ∀ q < n, z q = false
    · rw [if_pos h, if_pos (this.1 h)]; simp
    · rw [if_neg h, if_neg fun h' => h (this.2 h')]; simp
  rw [this, sumB_pick n (fun _ => false) (fun _ => (1 : ℝ))]

theorem x_sum {n : ℕ} (hn : 0 < n) (g : Bits → ℂ) :
    sumB n (fun z => (normSq (app1 flipM 0 (zeros n).vec z) : ℂ) * g z) (fun _ => false) = g one0 := by
  have : (fun z => (normSq (app1 flipM 0 (zeros n).vec z) : ℂ) * g z) = fun z => if ∀ q < n, one0 q = z q then g z else 0 := by
    funext z
    have h1 : app1 flipM 0 (zeros n).vec z = if ∀ q < n, one0 q = z q then 1 else 0 := by
      have : app1 flipM 0 (zeros n).vec z = (zeros n).vec (update z 0 (!z 0)) := by
        simp only [app1, Fintype.sum_bool, flipM]
        cases z 0 <;> simp
      rw [this]
      unfold zeros
      rw [(collapsed_spec n _).2]
      have : (∀ q < n, update z 0 (!z 0) q = false) ↔ ∀ q < n, one0 q = z q := by
        constructor
        · intro h q hq
          have := h q hq
          by_cases h0 : q = 0
          · subst h0; simp at this; simp [one0, this]
          · rw [Function.update_of_ne h0] at this; simp [one0, h0, this]
        · intro h q hq
          have := h q hq
          by_cases h0 : q = 0
          · subst h0; simp [one0] at this; simp [this]
          · rw [Function.update_of_ne h0, ← this]; simp [one0, h0]
      simp only [this]
    rw [h1]
    split_ifs <;> simp
  rw [this, sumB_pick n one0 g]
  congr 1
  funext q
  simp only [low]
  by_cases h : q < n
  · simp [h]
  · simp [h, one0]; omega

theorem x_run {f : State → State} (h : ActsL [xo 0] f) (ψ : State) : f ψ = app1 flipM 0 ψ := by
  have h1 := h ⟨ψ, fun _ => false, fun _ => false⟩
  have h2 : run [xo 0] ⟨ψ, fun _ => false, fun _ => false⟩ = some ⟨app1 flipM 0 ψ, fun _ => false, fun _ => false⟩ := by
    rw [run_singleton]
    simp [xo, exec, xDen, Cfg.mapSt]
  rw [h2] at h1
  simpa [Cfg.mapSt] using h1.symm

/-- Sampling X on qubit 0 and measurements. -/
theorem x_sample {C : Qc} (hC : C.Ok 1) (hn : 0 < C.n) {ms : List (Op ℝ)} (ho : C.ops = xo 0 :: ms)
    (hm : ∀ o ∈ ms, isMeas o = true) (shots : ℕ) (x : List Bool → ℂ) : ∃ τ : Equiv.Perm ℕ, (∀ p ∈ C.out, τ p.1 = p.2) ∧
      (sample C (zeros C.n) shots 0).E (genR x) =
        valOf C ⟨false, !ms.isEmpty, true, (pairsOf ms).foldl (fun m p => mapSet m p.1 p.2) []⟩ x (str C.n (one0 ∘ τ.symm)) ^ shots := by
  obtain ⟨f, τ, h1, h2, -, h4⟩ := static_E hC (us := [xo 0]) (ms := ms) ho (by simp [xo, isUni]) hm zeros_holds le_rfl shots x
  refine ⟨τ, h2, ?_⟩
  rw [h4, x_run h1, x_sum hn]

theorem x_average {n : ℕ} (hn : 0 < n) {ms : List (Op ℝ)} (hm : ∀ o ∈ ms, isMeas o = true) (x : Bits → ℂ) :
    average n (xo 0 :: ms) (zeros n).vec x = x (writeAll one0 (pairsOf ms) fun _ => false) := by
  have hf : ActsL [xo 0] (app1 flipM 0) := by
    intro c
    rw [run_singleton]
    simp [xo, exec, xDen]
  show wt n x ([xo 0] ++ ms) _ _ = _
  rw [wt_actsL _ _ [xo 0] ms (by simp [xo, isUni]) hf, wt_measures _ _ ms hm, x_sum hn]

theorem lay2 : LayN 2 [(0, 0), (1, 1)] 1 := by
  have hl : ∀ k v, ([(0, 0), (1, 1)] : Perm).lookup k = some v ↔ v = k ∧ v < 2 := by
    intro k v
    match k with
    | 0 => simp [List.lookup]; omega
    | 1 => simp [List.lookup]; omega
    | k + 2 => simp [List.lookup]; omega
  refine ⟨by decide, fun k v h => ((hl k v).1 h).1.symm, fun k => ?_, fun k => ?_, fun _ _ => rfl⟩
  · exact ⟨fun ⟨v, h⟩ => by have := (hl k v).1 h; omega, fun h => ⟨k, (hl k k).2 ⟨rfl, h⟩⟩⟩
  · exact ⟨fun ⟨v, h⟩ => by have := (hl v k).1 h; omega, fun h => ⟨k, (hl k k).2 ⟨rfl, h⟩⟩⟩

/-! ### Counterexamples -/

/-- Qubit 0 is measured into bits 0 and 1. -/
def qTwice : Qc := ⟨2, 2, false, [xo 0, .measure [0] [0], .measure [0] [1]], [(0, 0), (1, 1)], [(0, 0), (1, 1)]⟩

theorem qTwice_ok : qTwice.Ok 1 := by
  refine ⟨?_, lay2, by decide, by decide, by decide⟩
  intro o ho
  simp only [qTwice, List.mem_cons, List.not_mem_nil, or_false] at ho
  rcases ho with rfl | rfl | rfl
  · exact xo_good (D := (· < 2)) (by omega)
  · simp [DGood, qTwice]
  · simp [DGood, qTwice]

/-- **C89 (counterexample: qubit measured twice).** Measurements at the end are collected in a map from
qubits to bits.  If a qubit that is 1 is measured into two bits, one of them is reported as 0. -/
theorem c89_qubit_twice (x : List Bool → ℂ) (shots : ℕ) :
    (sample qTwice (zeros 2) shots 0).E (genR x) = x [true, false] ^ shots ∧
    average 2 qTwice.ops (zeros 2).vec (fun m => x (str 2 m)) = x [true, true] := by
  constructor
  · obtain ⟨τ, h1, h2⟩ := x_sample qTwice_ok (by simp [qTwice]) rfl (by simp [isMeas]) shots x
    have t0 : τ.symm 0 = 0 := by rw [Equiv.symm_apply_eq]; exact (h1 (0, 0) (by simp [qTwice])).symm
    refine h2.trans ?_
    congr 1
    simp [valOf, conv, qTwice, pairsOf, mapSet, convMeas, str, readBit, one0, t0, List.lookup]
  · rw [show qTwice.ops = xo 0 :: [.measure [0] [0], .measure [0] [1]] from rfl, x_average (by omega) (by simp [isMeas])]
    congr 1

/-- Qubits 1 and 0 are measured into bit 0. -/
def bTwice : Qc := ⟨2, 1, false, [xo 0, .measure [1] [0], .measure [0] [0]], [(0, 0), (1, 1)], [(0, 0), (1, 1)]⟩

theorem bTwice_ok : bTwice.Ok 1 := by
  refine ⟨?_, lay2, by decide, by decide, by decide⟩
  intro o ho
  simp only [bTwice, List.mem_cons, List.not_mem_nil, or_false] at ho
  rcases ho with rfl | rfl | rfl
  · exact xo_good (D := (· < 2)) (by omega)
  · simp [DGood, bTwice]
  · simp [DGood, bTwice]

/-- **C89 (counterexample: bit written twice).** If two qubits are measured into the same bit, the
qubit with the higher index wins, whatever the order of the measurements. -/
theorem c89_bit_twice (x : List Bool → ℂ) (shots : ℕ) :
    (sample bTwice (zeros 2) shots 0).E (genR x) = x [false] ^ shots ∧
    average 2 bTwice.ops (zeros 2).vec (fun m => x (str 1 m)) = x [true] := by
  constructor
  · obtain ⟨τ, h1, h2⟩ := x_sample bTwice_ok (by simp [bTwice]) rfl (by simp [isMeas]) shots x
    have t0 : τ.symm 0 = 0 := by rw [Equiv.symm_apply_eq]; exact (h1 (0, 0) (by simp [bTwice])).symm
    have t1 : τ.symm 1 = 1 := by rw [Equiv.symm_apply_eq]; exact (h1 (1, 1) (by simp [bTwice])).symm
    refine h2.trans ?_
    congr 1
    simp [valOf, conv, bTwice, pairsOf, mapSet, convMeas, str, readBit, one0, t0, t1, List.lookup]
  · rw [show bTwice.ops = xo 0 :: [.measure [1] [0], .measure [0] [0]] from rfl, x_average (by omega) (by simp [isMeas])]
    congr 1

/-- The output of qubit 0 is on wire 1 and the other way round. -/
def outSwap : Qc := ⟨2, 0, true, [xo 0], [(0, 0), (1, 1)], [(0, 1), (1, 0)]⟩

theorem outSwap_ok : outSwap.Ok 1 := by
  refine ⟨?_, lay2, by decide, by decide, by decide⟩
  intro o ho
  simp only [outSwap, List.mem_cons, List.not_mem_nil, or_false] at ho
  subst ho
  exact xo_good (D := (· < 2)) (by omega)

/-- **C89 (counterexample: output permutation).** Without measurements, the output permutation is applied
to the state and again to the measured string: the result is that without output permutation. -/
theorem c89_output_twice (x : List Bool → ℂ) (shots : ℕ) :
    (sample outSwap (zeros 2) shots 0).E (genR x) = x [false, true] ^ shots ∧
    averageAll 2 outSwap.ops (zeros 2).vec (fun z => x (str 2 (writeAll z outSwap.out fun _ => false))) = x [true, false] := by
  constructor
  · obtain ⟨τ, h1, h2⟩ := x_sample outSwap_ok (by simp [outSwap]) (ms := []) rfl (by simp) shots x
    have t0 : τ.symm 0 = 1 := by rw [Equiv.symm_apply_eq]; exact (h1 (1, 0) (by simp [outSwap])).symm
    have t1 : τ.symm 1 = 0 := by rw [Equiv.symm_apply_eq]; exact (h1 (0, 1) (by simp [outSwap])).symm
    refine h2.trans ?_
    congr 1
    simp [valOf, conv, outSwap, convOut, str, readBit, one0, t0, t1]
  · have : run outSwap.ops ⟨(zeros 2).vec, fun _ => false, fun _ => false⟩
        = some ⟨app1 flipM 0 (zeros 2).vec, fun _ => false, fun _ => false⟩ := by
      show run [xo 0] _ = _
      rw [run_singleton]
      simp [xo, exec, xDen, Cfg.mapSt]
    unfold averageAll
    rw [this]
    simp only
    rw [x_sum (by omega)]
    congr 1

/-! ### Examples -/

def hOp (q : ℕ) : Op ℝ := .std { type := .h, targets := [q] }

theorem hOp_good {D : ℕ → Prop} {q : ℕ} (h : D q) : Good D (hOp q) := by
  unfold hOp
  rw [Good]
  refine ⟨⟨by simp, by simp [ctrlQubits]⟩, ⟨_, StdOp.denote_single_of (q := q) rfl rfl rfl⟩, ?_, ?_,
    fun h => by cases h⟩
  · intro k hk
    rw [StdOp.mem_used] at hk
    simp [ctrlQubits] at hk
    rw [hk]; exact h
  · intro c hc; simp at hc

/-- A Hadamard gate, a measurement, a reset and another measurement. -/
def exDyn : Qc := ⟨2, 2, false, [hOp 0, .measure [0] [0], .reset [0], .measure [0] [1]], [(0, 0), (1, 1)], [(0, 0), (1, 1)]⟩

theorem exDyn_ok : exDyn.Ok 1 := by
  refine ⟨?_, lay2, by decide, by decide, by decide⟩
  intro o ho
  simp only [exDyn, List.mem_cons, List.not_mem_nil, or_false] at ho
  rcases ho with rfl | rfl | rfl | rfl
  · exact hOp_good (D := (· < 2)) (by omega)
  · simp [DGood, exDyn]
  · simp [DGood, exDyn]
  · simp [DGood, exDyn]

theorem hDen (q : ℕ) : ({ type := .h, targets := [q] } : StdOp ℝ).denote
    = some (app1 (mat1 ⟨r2, 0⟩ ⟨r2, 0⟩ ⟨r2, 0⟩ ⟨-r2, 0⟩) q) := by
  rw [StdOp.denote_single_of (q := q) rfl rfl rfl]
  congr 1

theorem exDyn_average (x : Bits → ℂ) : average 2 exDyn.ops (zeros 2).vec x =
    1 / 2 * x (fun _ => false) + 1 / 2 * x one0 := by
  show wt 2 _ (hOp 0 :: [.measure [0] [0], .reset [0], .measure [0] [1]]) (zeros 2).vec _ = _
  rw [wt_acts (f := app1 (mat1 ⟨r2, 0⟩ ⟨r2, 0⟩ ⟨r2, 0⟩ ⟨-r2, 0⟩) 0) _ _ rfl ?_]
  · have hz : ∀ z, (zeros 2).vec z = if z 0 = false ∧ z 1 = false then 1 else 0 := by
      intro z
      unfold zeros
      rw [(collapsed_spec 2 _).2]
      have : (∀ q < 2, z q = false) ↔ z 0 = false ∧ z 1 = false := by
        constructor
        · intro h; exact ⟨h 0 (by omega), h 1 (by omega)⟩
        · rintro ⟨h0, h1⟩ q hq
          obtain rfl | rfl : q = 0 ∨ q = 1 := by omega
          · exact h0
          · exact h1
      simp only [this]
    have hr : ((r2 : ℂ)) * r2 = 1 / 2 := by
      rw [← Complex.ofReal_mul, r2_mul]; norm_num
    have e1 : update (update (fun _ => false : Bits) 0 true) 1 false = one0 := by
      funext q; simp only [update, one0]; split_ifs <;> simp_all
    simp only [wt_measure, wt_reset, List.zip_cons_cons, List.zip_nil_right, measSum, resSum]
    simp only [wt, outcomes, sumO, run_nil, weigh, nrm, sumB, app1, Fintype.sum_bool, projM, flipM, hz]
    simp [mat1, hr, e1]
  · intro c
    simp [hOp, exec, hDen]

/-- In half of the shots the first measurement gives 1, the second one always 0. -/
example (x : List Bool → ℂ) (shots : ℕ) : (sample exDyn (zeros 2) shots 0).E (genR x) =
    (1 / 2 * x [false, false] + 1 / 2 * x [false, true]) ^ shots := by
  refine (c89_dynamic_partial exDyn_ok ?_ (zeros_holds (n := 2)) le_rfl shots x).trans ?_
  · rintro ⟨us, ms, h1, h2, h3⟩
    have hr : (Op.reset [0] : Op ℝ) ∈ us ++ ms := by rw [← h1]; simp [exDyn]
    rcases List.mem_append.1 hr with h | h
    · have := h2 _ h; simp [isUni] at this
    · have := h3 _ h; simp [isMeas] at this
  · congr 1
    refine (exDyn_average _).trans ?_
    simp [str, exDyn, one0, List.range_succ]

/-- An X gate and a measurement of both qubits. -/
def exStat : Qc := ⟨2, 2, false, [xo 0, .measure [0, 1] [1, 0]], [(0, 0), (1, 1)], [(0, 1), (1, 0)]⟩

theorem exStat_ok : exStat.Ok 1 := by
  refine ⟨?_, lay2, by decide, by decide, by decide⟩
  intro o ho
  simp only [exStat, List.mem_cons, List.not_mem_nil, or_false] at ho
  rcases ho with rfl | rfl
  · exact xo_good (D := (· < 2)) (by omega)
  · simp [DGood, exStat]

/-- Measurement with exchanged bits and output permutation. -/
example (x : List Bool → ℂ) (shots : ℕ) : (sample exStat (zeros 2) shots 0).E (genR x) = x [true, false] ^ shots := by
  refine (c89_static_partial exStat_ok rfl (us := [xo 0]) (ms := [.measure [0, 1] [1, 0]]) rfl (by simp [xo, isUni])
    (by simp [isMeas]) (by simp) (by decide) (by decide) (by simp [pairsOf, exStat]) (zeros_holds (n := 2)) le_rfl shots x).trans ?_
  congr 1
  refine (x_average (n := 2) (ms := [.measure [0, 1] [1, 0]]) (by omega) (by simp [isMeas]) _).trans ?_
  congr 1

/-- No measurements: all qubits are reported. -/
def exNone : Qc := ⟨2, 0, true, [xo 0], [(0, 0), (1, 1)], [(0, 0), (1, 1)]⟩

theorem exNone_ok : exNone.Ok 1 := by
  refine ⟨?_, lay2, by decide, by decide, by decide⟩
  intro o ho
  simp only [exNone, List.mem_cons, List.not_mem_nil, or_false] at ho
  subst ho
  exact xo_good (D := (· < 2)) (by omega)

example (x : List Bool → ℂ) (shots : ℕ) : (sample exNone (zeros 2) shots 0).E (genR x) = x [false, true] ^ shots := by
  refine (c89_no_measurements_partial exNone_ok (by simp [exNone, xo, isUni]) (by simp [exNone]) (Or.inl rfl)
    (zeros_holds (n := 2)) le_rfl shots x).trans ?_
  congr 1
  have : run exNone.ops ⟨(zeros 2).vec, fun _ => false, fun _ => false⟩
      = some ⟨app1 flipM 0 (zeros 2).vec, fun _ => false, fun _ => false⟩ := by
    show run [xo 0] _ = _
    rw [run_singleton]
    simp [xo, exec, xDen, Cfg.mapSt]
  unfold averageAll
  rw [show exNone.n = 2 from rfl, this]
  simp only
  rw [x_sum (by omega)]
  congr 1

end MQT.Sim
