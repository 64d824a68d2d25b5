/-
Correctness of deterministic noise.
-/
import Verif.DD.Noise

set_option autoImplicit false

noncomputable section

open Classical
open Function (update)
open scoped ComplexConjugate

namespace MQT.DD

open MQT.IR (Bits State Mat1 mat1)

/-! ### Operators on matrices -/

/-- An operator on matrices that leaves the qubits from `n` on alone, is linear in scalars, and preserves adjoints and
mixtures. -/
structure GoodOp (n : ℕ) (T : (Bits → Bits → ℂ) → Bits → Bits → ℂ) : Prop where
  loc : ∀ H H' x y, (∀ x' y', (∀ q, n ≤ q → x' q = x q) → (∀ q, n ≤ q → y' q = y q) → H x' y' = H' x' y') → T H x y = T H' x y
  smul : ∀ z H x y, T (fun x y => z * H x y) x y = z * T H x y
  adj : ∀ H x y, conj (T H y x) = T (fun x y => conj (H y x)) x y
  mix : ∀ H, Mix H → Mix (T H)

theorem GoodOp.id (n : ℕ) : GoodOp n fun H => H :=
  ⟨fun _ _ x y h => h x y (fun _ _ => rfl) (fun _ _ => rfl), fun _ _ _ _ => rfl, fun _ _ _ => rfl, fun _ h => h⟩

theorem GoodOp.comp {n : ℕ} {S T : (Bits → Bits → ℂ) → Bits → Bits → ℂ} (hS : GoodOp n S) (hT : GoodOp n T) :
    GoodOp n fun H => T (S H) := by
  refine ⟨fun H H' x y h => ?_, fun z H x y => ?_, fun H x y => ?_, fun H h => hT.mix _ (hS.mix _ h)⟩
  · refine hT.loc _ _ _ _ fun x' y' hx hy => hS.loc _ _ _ _ fun x'' y'' hx' hy' => h x'' y'' ?_ ?_
    · exact fun q hq => (hx' q hq).trans (hx q hq)
    · exact fun q hq => (hy' q hq).trans (hy q hq)
  · have : S (fun x y => z * H x y) = fun x y => z * S H x y := funext fun x => funext fun y => hS.smul z H x y
    rw [this, hT.smul]
  · rw [hT.adj]
    have : (fun x y => (starRingEnd ℂ) (S H y x)) = S fun x y => (starRingEnd ℂ) (H y x) :=
      funext fun x => funext fun y => hS.adj H x y
    rw [this]

theorem GoodOp.mono {n m : ℕ} (hnm : n ≤ m) {T : (Bits → Bits → ℂ) → Bits → Bits → ℂ} (h : GoodOp n T) : GoodOp m T :=
  ⟨fun H H' x y hh => h.loc H H' x y fun x' y' hx hy => hh x' y' (fun q hq => hx q (by omega)) (fun q hq => hy q (by omega)),
    h.smul, h.adj, h.mix⟩

theorem GoodOp.zero {n : ℕ} {T : (Bits → Bits → ℂ) → Bits → Bits → ℂ} (h : GoodOp n T) (x y : Bits) :
    T (fun _ _ => 0) x y = 0 := by
  have := h.smul 0 (fun _ _ => 0) x y
  simpa using this

theorem krausSum_smul (l : List Mat1) (z : ℂ) (B : Bool → Bool → ℂ) (r c : Bool) :
    krausSum l (fun a b => z * B a b) r c = z * krausSum l B r c := by
  unfold krausSum
  rw [← List.sum_map_mul_left]
  congr 1
  refine List.map_congr_left fun K _ => ?_
  simp only [Finset.mul_sum]
  refine Finset.sum_congr rfl fun a _ => Finset.sum_congr rfl fun b _ => ?_
  ring

theorem krausSum_conj (l : List Mat1) (B : Bool → Bool → ℂ) (r c : Bool) :
    conj (krausSum l B c r) = krausSum l (fun a b => conj (B b a)) r c := by
  unfold krausSum
  rw [map_list_sum, List.map_map]
  congr 1
  refine List.map_congr_left fun K _ => ?_
  simp only [Function.comp, map_sum]
  rw [Finset.sum_comm]
  refine Finset.sum_congr rfl fun a _ => Finset.sum_congr rfl fun b _ => ?_
  rw [map_mul, map_mul, Complex.conj_conj]
  ring

theorem Mix.chan {H : Bits → Bits → ℂ} (h : Mix H) (l : List Mat1) (q : ℕ) : Mix (chan l q H) := by
  induction l with
  | nil => exact Mix.zero.congr fun x y => by simp [DD.chan, krausSum]
  | cons K l ih =>
    have h1 : Mix fun x y => ∑ a, ∑ b, K (x q) a * H (update x q a) (update y q b) * conj (K (y q) b) := by
      refine h.map (fun f x => ∑ a, K (x q) a * f (update x q a)) fun s f hf x y => ?_
      simp only [hf, Finset.mul_sum, Finset.sum_mul, map_sum, map_mul]
      rw [Finset.sum_comm' (t' := Finset.univ) (s' := fun _ => Finset.univ) (by simp)]
      rw [Finset.sum_congr rfl fun b _ => Finset.sum_comm]
      rw [Finset.sum_comm]
      refine Finset.sum_congr rfl fun k _ => Finset.sum_congr rfl fun b _ => Finset.sum_congr rfl fun a _ => ?_
      ring
    exact (h1.add ih).congr fun x y => by simp [DD.chan, krausSum]

theorem goodOp_chan (l : List Mat1) {q n : ℕ} (hq : q < n) : GoodOp n (chan l q) := by
  refine ⟨fun H H' x y h => ?_, fun z H x y => ?_, fun H x y => ?_, fun H h => h.chan l q⟩
  · unfold chan
    congr 1
    funext a b
    exact h _ _ (fun r hr => Function.update_of_ne (by omega) _ _) (fun r hr => Function.update_of_ne (by omega) _ _)
  · exact krausSum_smul l z _ _ _
  · exact krausSum_conj l _ _ _

theorem goodOp_fold (N : DetNoise) (k : ℕ) {q n : ℕ} (hq : q < n) (l : List Noise) :
    GoodOp n fun H => l.foldl (fun H ty => chan (ty.kraus (N.prob k ty)) q H) H := by
  induction l with
  | nil => exact GoodOp.id n
  | cons ty l ih => exact (goodOp_chan _ hq).comp ih

theorem goodOp_channel (N : DetNoise) (used : Finset ℕ) (n : ℕ) : GoodOp n (N.channel used n) := by
  induction n with
  | zero => exact GoodOp.id 0
  | succ n ih =>
    by_cases h : n ∈ used
    · have e : N.channel used (n + 1) = fun H => N.chanQ used.card n (N.channel used n H) := by
        funext H; rw [DetNoise.channel, if_pos h]
      rw [e]
      exact (ih.mono (Nat.le_succ n)).comp (goodOp_fold N _ (Nat.lt_succ_self n) _)
    · have e : N.channel used (n + 1) = N.channel used n := by
        funext H; rw [DetNoise.channel, if_neg h]
      rw [e]
      exact ih.mono (Nat.le_succ n)

theorem channel_none (N : DetNoise) {used : Finset ℕ} {n : ℕ} (h : ¬ ∃ q ∈ used, q < n) (H : Bits → Bits → ℂ) :
    N.channel used n H = H := by
  induction n with
  | zero => rfl
  | succ n ih =>
    rw [DetNoise.channel, if_neg fun hn => h ⟨n, hn, Nat.lt_succ_self n⟩]
    exact ih fun ⟨q, h1, h2⟩ => h ⟨q, h1, by omega⟩

/-! ### Operations on edges -/

theorem scale_p (e : MEdge) (z : ℂ) : (scale e z).p = e.p := by unfold scale; split_ifs <;> rfl

theorem scale_w (e : MEdge) (z : ℂ) : (scale e z).w = z * e.w := by
  unfold scale
  split_ifs with h
  · rw [h, mul_zero]
  · exact mul_comm _ _

theorem scale_mat (e : MEdge) (z : ℂ) (n : ℕ) (x y : Bits) : (scale e z).mat n x y = z * e.mat n x y := by
  rw [Edge.mat, scale_p, scale_w, Edge.mat, mul_assoc]

theorem scale_dens (e : MEdge) (z : ℂ) (n : ℕ) (x y : Bits) : (scale e z).dens n x y = z * e.dens n x y := by
  rw [Edge.dens, scale_p, scale_w, Edge.dens, mul_assoc]

theorem HOk.scale {n : ℕ} {e : MEdge} (h : HOk n e) {z : ℂ} (hz : Nonneg z) : HOk n (scale e z) :=
  ⟨by rw [scale_p]; exact h.can, by rw [scale_p]; exact h.shape, by rw [scale_w]; exact hz.mul h.real⟩

theorem var_le {n : ℕ} {p : MNode} (h : MCan n p) : p.var ≤ n - 1 := by
  cases p with
  | term => exact Nat.zero_le _
  | node v w c => have := h.1; simp only [Node.var]; omega

/-- `add2` at the level `var`. -/
theorem madd2_top {n : ℕ} {e : RC → MEdge} (h : ∀ b, MCan n (e b).p) {x y : MEdge} {bx b : RC} (hx : x.p = (e bx).p)
    (hy : y.p = (e b).p) : ∃ r, madd2 (top4 e + 1) x y = some r ∧ MCan n r.p ∧
    (∀ a b, r.mat n a b = x.mat n a b + y.mat n a b) ∧
    (HOk n x → HOk n y → Mix (x.dens n) → Mix (y.dens n) →
      HOk n r ∧ ∀ a b, r.dens n a b = x.dens n a b + y.dens n a b) := by
  have cx : MCan n x.p := hx ▸ h bx
  have cy : MCan n y.p := hy ▸ h b
  cases n with
  | zero =>
    have hp : x.p = y.p := cx.zero_cases.trans cy.zero_cases.symm
    have : ∃ r, addPre x y = some r := by
      unfold addPre
      rw [if_pos hp]
      split_ifs <;> exact ⟨_, rfl⟩
    obtain ⟨r, hr⟩ := this
    have e1 := recM_pre hr (top4 e + 1)
    have e2 := recM_pre hr 0
    obtain ⟨r', k1, k2, k3⟩ := madd2_can cx cy
    rw [madd2, e2] at k1
    cases k1
    refine ⟨r, e1, k2, k3, fun ox oy mx my => ?_⟩
    obtain ⟨r', k1, k2, k3⟩ := hadd_spec 0 x y ox oy mx my
    rw [madd2, e2] at k1
    cases k1
    exact ⟨k2, k3⟩
  | succ n =>
    have hv : ∀ b, (e b).p.var ≤ top4 e := by
      intro b
      unfold top4
      obtain ⟨b1, b2⟩ := b
      cases b1 <;> cases b2 <;> simp
    have ht : top4 e ≤ n := by
      unfold top4
      have := fun b => var_le (h b)
      simp only [Nat.add_sub_cancel] at this
      exact max_le (max_le (this _) (this _)) (max_le (this _) (this _))
    refine madd2_at (by omega) cx cy ?_ ?_
    · rw [hx]; have := hv bx; omega
    · rw [hy]; have := hv b; omega

/-- What one effect does to the four blocks. -/
def form (p : ℝ) (B : Bool → Bool → ℂ) (r c : Bool) : Noise → ℂ
  | .ampDamp => if r = c then if r = false then B false false + p * B true true else (1 - p) * B true true
      else (√(1 - p) : ℝ) * B r c
  | .phaseFlip => if r = c then B r c else (1 - 2 * p) * B r c
  | .depol => if r = c then (2 - p) / 2 * B r r + p / 2 * B (!r) (!r) else (1 - p) * B r c
  | .ident => B r c

theorem kraus_form {p : ℝ} (h : 0 ≤ p ∧ p ≤ 1) (ty : Noise) (B : Bool → Bool → ℂ) (r c : Bool) :
    krausSum (ty.kraus p) B r c = form p B r c ty := by
  cases ty
  · exact kraus_ampDamp h B r c
  · exact kraus_phaseFlip h B r c
  · exact kraus_depol h B r c
  · cases r <;> cases c <;> simp [krausSum, Noise.kraus, form]

/-- One effect does to four matrices what `form` says, and to the diagonal blocks of a density matrix too. -/
theorem step_form {N : DetNoise} (hN : N.Ok) (used : Finset ℕ) (ty : Noise) {n : ℕ} {e : RC → MEdge}
    (h : ∀ b, MCan n (e b).p) : ∃ e', N.step used ty e = some e' ∧ (∀ b, MCan n (e' b).p) ∧
    (∀ r c x y, (e' (r, c)).mat n x y = form (N.prob used.card ty) (fun a b => (e (a, b)).mat n x y) r c ty) ∧
    (QuadOk n e → Mix (quad n e) → QuadOk n e' ∧
      ∀ r x y, (e' (r, r)).dens n x y = form (N.prob used.card ty) (fun a b => (e (a, b)).dens n x y) r r ty) := by
  have hp := hN.prob used.card ty
  cases ty with
  | ident =>
    exact ⟨e, rfl, h, fun r c x y => rfl, fun q _ => ⟨q, fun r x y => rfl⟩⟩
  | phaseFlip =>
    refine ⟨_, rfl, fun b => ?_, fun r c x y => ?_, fun q _ => ⟨⟨fun b => ?_, ?_, fun b => ?_⟩, fun r x y => ?_⟩⟩
    · unfold phaseFlipEdges; split_ifs <;> first | exact h b | (rw [scale_p]; exact h b)
    · unfold phaseFlipEdges form
      simp only
      split_ifs <;> first | rfl | (rw [scale_mat]; simp [DetNoise.prob, *])
    · unfold phaseFlipEdges; split_ifs <;> first | exact h b | (rw [scale_p]; exact h b)
    · simp only [phaseFlipEdges, Bool.false_eq_true, Bool.true_eq_false, if_false, q.off]
    · simp only [phaseFlipEdges, if_true]
      exact q.diag b
    · simp only [phaseFlipEdges, form, if_true]
  | ampDamp =>
    have e1 : N.step used .ampDamp e = ampDampEdges (N.prob used.card .ampDamp) e := rfl
    rw [e1]
    generalize N.prob used.card .ampDamp = p at *
    have h0 : ∃ e0, (if (e (true, true)).w = 0 then some (e (false, false))
        else if (e (false, false)).w = 0 then some ⟨(e (true, true)).p, (e (true, true)).w * p⟩
        else madd2 (top4 e + 1) (e (false, false)) ⟨(e (true, true)).p, (e (true, true)).w * p⟩) = some e0 ∧ MCan n e0.p ∧
        (∀ x y, e0.mat n x y = (e (false, false)).mat n x y + p * (e (true, true)).mat n x y) ∧
        (QuadOk n e → Mix (quad n e) → HOk n e0 ∧
          ∀ x y, e0.dens n x y = (e (false, false)).dens n x y + p * (e (true, true)).dens n x y) := by
      have hs : QuadOk n e → HOk n ⟨(e (true, true)).p, (e (true, true)).w * p⟩ := fun q =>
        ⟨(q.diag true).can, (q.diag true).shape, (q.diag true).real.mul (Nonneg.of hp.1)⟩
      by_cases h1 : (e (true, true)).w = 0
      · rw [if_pos h1]
        exact ⟨_, rfl, h _, fun x y => by simp [Edge.mat, h1], fun q _ => ⟨q.diag false, fun x y => by simp [Edge.dens, h1]⟩⟩
      · rw [if_neg h1]
        by_cases h2 : (e (false, false)).w = 0
        · rw [if_pos h2]
          refine ⟨_, rfl, h (true, true), fun x y => ?_, fun q _ => ⟨hs q, fun x y => ?_⟩⟩
          · simp only [Edge.mat, h2]; ring
          · simp only [Edge.dens, h2]; ring
        · rw [if_neg h2]
          obtain ⟨r, k1, k2, k3, k4⟩ := madd2_top h (x := e (false, false))
            (y := ⟨(e (true, true)).p, (e (true, true)).w * p⟩) (bx := (false, false)) (b := (true, true)) rfl rfl
          refine ⟨r, k1, k2, fun x y => ?_, fun q hm => ?_⟩
          · rw [k3]; simp only [Edge.mat]; ring
          · have hd : ∀ x y, Edge.dens ⟨(e (true, true)).p, (e (true, true)).w * p⟩ n x y = p * (e (true, true)).dens n x y :=
              fun x y => by simp only [Edge.dens]; ring
            obtain ⟨m1, m2⟩ := k4 (q.diag false) (hs q) (hm.block false) (((hm.block true).smul (Nonneg.of hp.1)).congr hd)
            exact ⟨m1, fun x y => by rw [m2, hd]⟩
    obtain ⟨e0, k1, k2, k3, k4⟩ := h0
    have hn : Nonneg (1 - p : ℂ) := ⟨1 - p, by linarith [hp.2], by push_cast; rfl⟩
    refine ⟨_, by unfold ampDampEdges; rw [k1]; rfl, fun b => ?_, fun r c x y => ?_, fun q hm => ⟨⟨fun b => ?_, ?_, fun b => ?_⟩,
      fun r x y => ?_⟩⟩
    · simp only; split_ifs
      · exact k2
      · rw [scale_p]; exact h b
      · rw [scale_p]; exact h b
    · cases r <;> cases c <;> simp [form, scale_mat, k3]
    · simp only; split_ifs
      · exact k2
      · rw [scale_p]; exact h b
      · rw [scale_p]; exact h b
    · simp [q.off]
    · cases b
      · simpa using (k4 q hm).1
      · simpa using (q.diag true).scale hn
    · cases r
      · simpa [form] using (k4 q hm).2 x y
      · simp [form, scale_dens]
  | depol =>
    have e1 : N.step used .depol e = depolEdges (N.prob used.card .depol) e := rfl
    rw [e1]
    generalize N.prob used.card .depol = p at *
    have n1 : Nonneg ((2 - p) * (1 / 2) : ℂ) := ⟨(2 - p) * (1 / 2), by linarith [hp.2], by push_cast; rfl⟩
    have n2 : Nonneg (p * (1 / 2) : ℂ) := ⟨p * (1 / 2), by linarith [hp.1], by push_cast; rfl⟩
    have n3 : Nonneg (1 - p : ℂ) := ⟨1 - p, by linarith [hp.2], by push_cast; rfl⟩
    have hw : ∀ (e : MEdge) (z : ℝ), (if e.w = 0 then 0 else e.w * (z : ℂ) * (1 / 2)) = e.w * (z * (1 / 2)) := by
      intro e z
      split_ifs with h0
      · rw [h0, zero_mul]
      · ring
    have hh : ∀ b, ∃ r, madd2 (top4 e + 1) ⟨(e (b, b)).p, (e (b, b)).w * ((2 - p : ℝ) * (1 / 2))⟩
        ⟨(e (!b, !b)).p, (e (!b, !b)).w * (p * (1 / 2))⟩ = some r ∧ MCan n r.p ∧
        (∀ x y, r.mat n x y = (2 - p) / 2 * (e (b, b)).mat n x y + p / 2 * (e (!b, !b)).mat n x y) ∧
        (QuadOk n e → Mix (quad n e) → HOk n r ∧
          ∀ x y, r.dens n x y = (2 - p) / 2 * (e (b, b)).dens n x y + p / 2 * (e (!b, !b)).dens n x y) := by
      intro b
      obtain ⟨r, k1, k2, k3, k4⟩ := madd2_top h (x := ⟨(e (b, b)).p, (e (b, b)).w * ((2 - p : ℝ) * (1 / 2))⟩)
            (y := ⟨(e (!b, !b)).p, (e (!b, !b)).w * (p * (1 / 2))⟩) (bx := (b, b)) (b := (!b, !b)) rfl rfl
      refine ⟨r, k1, k2, fun x y => ?_, fun q hm => ?_⟩
      · rw [k3]; simp only [Edge.mat]; push_cast; ring
      · have d1 : ∀ x y, Edge.dens ⟨(e (b, b)).p, (e (b, b)).w * ((2 - p : ℝ) * (1 / 2))⟩ n x y =
            (2 - p) * (1 / 2) * (e (b, b)).dens n x y := fun x y => by simp only [Edge.dens]; push_cast; ring
        have d2 : ∀ x y, Edge.dens ⟨(e (!b, !b)).p, (e (!b, !b)).w * (p * (1 / 2))⟩ n x y =
            p * (1 / 2) * (e (!b, !b)).dens n x y := fun x y => by simp only [Edge.dens]; ring
        obtain ⟨m1, m2⟩ := k4 ⟨(q.diag b).can, (q.diag b).shape, (q.diag b).real.mul (by push_cast; exact n1)⟩
          ⟨(q.diag (!b)).can, (q.diag (!b)).shape, (q.diag (!b)).real.mul n2⟩ (((hm.block b).smul n1).congr d1)
          (((hm.block (!b)).smul n2).congr d2)
        exact ⟨m1, fun x y => by rw [m2, d1, d2]; ring⟩
    choose g hg using hh
    refine ⟨fun b => if b.1 = b.2 then if b.1 = false then g false else g true else scale (e b) (1 - p), ?_, fun b => ?_,
      fun r c x y => ?_, fun q hm => ⟨⟨fun b => ?_, ?_, fun b => ?_⟩, fun r x y => ?_⟩⟩
    · unfold depolEdges
      simp only [hw]
      have h1 := (hg false).1
      have h2 := (hg true).1
      simp only [Bool.not_false, Bool.not_true] at h1 h2
      rw [h1, Option.bind_some, h2]
      rfl
    · simp only; split_ifs
      · exact (hg _).2.1
      · exact (hg _).2.1
      · rw [scale_p]; exact h b
    · cases r <;> cases c <;> simp [form, scale_mat, (hg _).2.2.1]
    · split_ifs
      · exact (hg _).2.1
      · exact (hg _).2.1
      · rw [scale_p]; exact h b
    · simp [q.off]
    · cases b
      · simpa using ((hg false).2.2.2 q hm).1
      · simpa using ((hg true).2.2.2 q hm).1
    · cases r
      · simpa [form] using ((hg false).2.2.2 q hm).2 x y
      · simpa [form] using ((hg true).2.2.2 q hm).2 x y

theorem form_diag (p : ℝ) {B B' : Bool → Bool → ℂ} (h : ∀ a, B a a = B' a a) (r : Bool) (ty : Noise) :
    form p B r r ty = form p B' r r ty := by
  cases ty <;> simp [form, h]

theorem form_off (p : ℝ) {B B' : Bool → Bool → ℂ} {r c : Bool} (hrc : r ≠ c) (h : B r c = B' r c) (ty : Noise) :
    form p B r c ty = form p B' r c ty := by
  cases ty <;> simp [form, hrc, h]

theorem form_conj (p : ℝ) (B : Bool → Bool → ℂ) (r c : Bool) (ty : Noise) :
    conj (form p B r c ty) = form p (fun a b => conj (B a b)) r c ty := by
  have h2 : conj (2 : ℂ) = 2 := Complex.conj_ofNat 2
  cases ty <;> simp only [form] <;> split_ifs <;> simp [h2]

/-! ### All effects of a level -/

theorem steps_mat {N : DetNoise} (hN : N.Ok) (used : Finset ℕ) {n : ℕ} : ∀ (l : List Noise) {e : RC → MEdge},
    (∀ b, MCan n (e b).p) → ∃ e', N.steps used l e = some e' ∧ (∀ b, MCan n (e' b).p) ∧
    ∀ x y, (e' (x n, y n)).mat n x y = l.foldl (fun H ty => chan (ty.kraus (N.prob used.card ty)) n H)
      (fun x y => (e (x n, y n)).mat n x y) x y
  | [], e, h => ⟨e, rfl, h, fun _ _ => rfl⟩
  | ty :: l, e, h => by
    obtain ⟨e1, k1, k2, k3, -⟩ := step_form hN used ty h
    obtain ⟨e2, m1, m2, m3⟩ := steps_mat hN used l k2
    refine ⟨e2, by rw [DetNoise.steps, k1]; exact m1, m2, fun x y => ?_⟩
    have hq : (fun x y => (e1 (x n, y n)).mat n x y) =
        chan (ty.kraus (N.prob used.card ty)) n fun x y => (e (x n, y n)).mat n x y := by
      funext x y
      rw [k3, chan, kraus_form (hN.prob _ _)]
      congr 1
      funext a b
      rw [← mat_update (e (a, b)) a b x y]
      simp
    rw [m3, List.foldl_cons, hq]

theorem steps_quad {N : DetNoise} (hN : N.Ok) (used : Finset ℕ) {n : ℕ} : ∀ (l : List Noise) {e : RC → MEdge},
    QuadOk n e → Mix (quad n e) → ∃ e', N.steps used l e = some e' ∧ QuadOk n e' ∧
    quad n e' = l.foldl (fun H ty => chan (ty.kraus (N.prob used.card ty)) n H) (quad n e)
  | [], e, h, _ => ⟨e, rfl, h, rfl⟩
  | ty :: l, e, h, hm => by
    obtain ⟨e1, k1, k2, k3, k4⟩ := step_form hN used ty h.can
    obtain ⟨k5, k6⟩ := k4 h hm
    have hq : quad n e1 = chan (ty.kraus (N.prob used.card ty)) n (quad n e) := by
      funext x y
      rw [chan, kraus_form (hN.prob _ _)]
      unfold quad
      by_cases hxy : x n = y n
      · rw [if_pos hxy, ← hxy, k6]
        refine form_diag _ (fun a => ?_) _ _
        simp only [Function.update_self, if_true]
        rw [dens_update]
      · rw [if_neg hxy]
        by_cases hx : x n = false
        · have hy : y n = true := by grind
          rw [if_pos hx, hx, hy, k3]
          refine form_off _ (by simp) ?_ _
          simp only [Function.update_self, Bool.false_eq_true, if_false, if_true]
          rw [mat_update]
        · have hx : x n = true := by grind
          have hy : y n = false := by grind
          rw [if_neg (by simp [hx]), hx, hy, k3, form_conj]
          refine form_off _ (by simp) ?_ _
          simp only [Function.update_self, Bool.true_eq_false, if_false]
          rw [mat_update]
    obtain ⟨e2, m1, m2, m3⟩ := steps_quad hN used l k5 (hq ▸ hm.chan _ _)
    refine ⟨e2, by rw [DetNoise.steps, k1]; exact m1, m2, ?_⟩
    rw [m3, List.foldl_cons, hq]

/-! ### The recursion -/

theorem MECan.can {n : ℕ} {e : MEdge} (h : MECan n e) : MCan n e.p := by
  by_cases h0 : e.w = 0
  · rw [h.1 h0]; trivial
  · exact h.2 h0

theorem expand_ecan {n : ℕ} {p : MNode} (h : MCan (n + 1) p) {used : Finset ℕ} (hu : ∃ q ∈ used, q < n + 1)
    (hl : Levels used (n + 1) p) (b : RC) : MECan n (expand n p b) ∧ Levels used n (expand n p b).p := by
  cases p with
  | term =>
    have ht : ∀ m, Levels used m .term := by intro m; cases m <;> simp [Levels]
    unfold expand
    split_ifs
    · exact ⟨⟨fun h => absurd h one_ne_zero, fun _ => trivial⟩, ht n⟩
    · exact ⟨MECan.zero n, ht n⟩
  | node v w c =>
    obtain ⟨rfl, h2⟩ := hl hu
    simp only [expand, if_true]
    exact ⟨h.2.2.2 b, h2 b⟩

theorem finish_w {n : ℕ} {w : ℂ} (hw : w ≠ 0) (e : RC → MEdge) (h : (finish n w e).w = 0) : (makeM n e).w = 0 := by
  unfold finish at h
  by_contra hc
  simp only [if_neg hc] at h
  exact (mul_ne_zero hc hw) h

theorem finish_p (n : ℕ) (w : ℂ) (e : RC → MEdge) : (finish n w e).p = (makeM n e).p := by
  unfold finish; simp only; split_ifs <;> rfl

theorem finish_mul (n : ℕ) (w : ℂ) (e : RC → MEdge) : (finish n w e).w = w * (makeM n e).w := by
  unfold finish; simp only; split_ifs with h
  · rw [h, mul_zero]
  · exact mul_comm _ _

/-- The four results of the recursion, in either mode. -/
theorem apply_new {N : DetNoise} {used : Finset ℕ} {first : Bool} {n : ℕ} {p : MNode} (hu : ∃ q ∈ used, q < n + 1)
    (hl : Levels used (n + 1) p) (g : RC → MEdge)
    (hg : ∀ b, N.apply used (if b.1 = b.2 then first else true) n (expand n p b) = some (g b))
    (ho : first = false → expand n p (false, true) = expand n p (true, false)) :
    successors (fun f e => N.apply used f n e) first p = some g := by
  cases p with
  | term =>
    rw [successors]
    have h0 := hg (false, false)
    have h3 := hg (true, true)
    have h1 := hg (false, true)
    have h2 := hg (true, false)
    simp only [expand, if_true, Bool.false_eq_true, Bool.true_eq_false, if_false] at h0 h1 h2 h3
    have z : ∀ f, N.apply used f n Edge.zero = some Edge.zero := by
      intro f
      cases n <;> simp [DetNoise.apply, Edge.zero]
    rw [z] at h1 h2
    rw [h0, Option.map_some]
    congr 1
    funext b
    have h4 := h0.symm.trans h3
    obtain ⟨b1, b2⟩ := b
    cases b1 <;> cases b2 <;> simp_all
  | node v w c =>
    obtain ⟨rfl, -⟩ := hl hu
    simp only [expand, if_true] at hg ho
    refine collect_some fun b => ?_
    cases first with
    | true => simpa using hg b
    | false =>
      simp only [Bool.false_eq_true, if_false]
      by_cases hb : b.1 = b.2
      · rw [if_pos hb]; simpa [hb] using hg b
      · rw [if_neg hb]
        have := hg b
        rw [if_neg hb] at this
        obtain ⟨b1, b2⟩ := b
        cases b1 <;> cases b2 <;> first | exact absurd rfl hb | skip
        · exact this
        · rw [ho rfl]; exact this

/-- In the first-path-edge mode the result is the channel applied to the matrix read plainly. -/
theorem apply_mat {N : DetNoise} (hN : N.Ok) {used : Finset ℕ} (hne : used ≠ ∅) : ∀ (n : ℕ) (e : MEdge), MECan n e →
    Levels used n e.p → ∃ r, N.apply used true n e = some r ∧ MECan n r ∧
      ∀ x y, r.mat n x y = N.channel used n (e.mat n) x y
  | 0, e, h, _ => ⟨e, by unfold DetNoise.apply; simp [hne], h, fun _ _ => rfl⟩
  | n + 1, e, h, hl => by
    by_cases hz : e.p = .term ∧ e.w = 0
    · refine ⟨e, by unfold DetNoise.apply; rw [if_pos hz], h, fun x y => ?_⟩
      have : e.mat (n + 1) = fun _ _ => 0 := by funext x y; simp [Edge.mat, hz.2]
      rw [this, (goodOp_channel N used (n + 1)).zero]
    by_cases hu : ∃ q ∈ used, q < n + 1
    swap
    · exact ⟨e, by unfold DetNoise.apply; rw [if_neg hz, if_neg hne, if_neg hu], h, fun x y => by rw [channel_none N hu]⟩
    have hw : e.w ≠ 0 := fun h0 => hz ⟨h.1 h0, h0⟩
    have hc := expand_ecan h.can hu hl
    choose g hg using fun b => apply_mat hN hne n (expand n e.p b) (hc b).1 (hc b).2
    have hnew := apply_new (N := N) (first := true) hu hl g (fun b => by rw [ite_self]; exact (hg b).1) (by simp)
    have gm : ∀ x y, (g (x n, y n)).mat n x y =
        N.channel used n (fun x y => (expand n e.p (x n, y n)).mat n x y) x y := by
      intro x y
      rw [(hg _).2.2]
      exact (goodOp_channel N used n).loc _ _ _ _ fun x' y' hx hy => by rw [hx n le_rfl, hy n le_rfl]
    have hstep : ∃ e', (if n ∈ used then N.steps used N.effects g else some g) = some e' ∧ (∀ b, MCan n (e' b).p) ∧
        ∀ x y, (e' (x n, y n)).mat n x y =
          N.channel used (n + 1) (fun x y => (expand n e.p (x n, y n)).mat n x y) x y := by
      by_cases hn : n ∈ used
      · obtain ⟨e', k1, k2, k3⟩ := steps_mat hN used N.effects (e := g) fun b => (hg b).2.1.can
        refine ⟨e', by rw [if_pos hn, k1], k2, fun x y => ?_⟩
        rw [k3, DetNoise.channel, if_pos hn, DetNoise.chanQ, ← funext fun x => funext fun y => gm x y]
      · refine ⟨g, by rw [if_neg hn], fun b => (hg b).2.1.can, fun x y => ?_⟩
        rw [gm, DetNoise.channel, if_neg hn]
    obtain ⟨e', k1, k2, k3⟩ := hstep
    have hcan := makeM_can (n := n) (e := e') fun b _ => k2 b
    refine ⟨finish n e.w e', ?_, ⟨fun h0 => ?_, fun h0 => ?_⟩, fun x y => ?_⟩
    · unfold DetNoise.apply
      rw [if_neg hz, if_neg hne, if_pos hu, hnew, Option.bind_some, k1, Option.map_some]
    · rw [finish_p]; exact hcan.1 (finish_w hw e' h0)
    · rw [finish_p]; exact hcan.can
    · have e1 : (finish n e.w e').mat (n + 1) x y = e.w * (makeM n e').mat (n + 1) x y := by
        rw [Edge.mat, finish_p, finish_mul, Edge.mat]; ring
      rw [e1, makeM_mat fun b _ => k2 b, k3, ← (goodOp_channel N used (n + 1)).smul]
      rfl

/-- A density-matrix edge as the package hands it out. -/
structure DensOk (n : ℕ) (e : MEdge) : Prop where
  ok : HOk n e
  zero : e.w = 0 → e.p = .term
  mix : Mix (e.dens n)

/-- On a density matrix the result is the channel applied to it. -/
theorem apply_dens {N : DetNoise} (hN : N.Ok) {used : Finset ℕ} (hne : used ≠ ∅) : ∀ (n : ℕ) (e : MEdge), DensOk n e →
    Levels used n e.p → ∃ r, N.apply used false n e = some r ∧ DensOk n r ∧
      ∀ x y, r.dens n x y = N.channel used n (e.dens n) x y
  | 0, e, h, _ => ⟨e, by unfold DetNoise.apply; simp [hne], h, fun _ _ => rfl⟩
  | n + 1, e, h, hl => by
    by_cases hz : e.p = .term ∧ e.w = 0
    · refine ⟨e, by unfold DetNoise.apply; rw [if_pos hz], h, fun x y => ?_⟩
      have : e.dens (n + 1) = fun _ _ => 0 := by funext x y; simp [Edge.dens, hz.2]
      rw [this, (goodOp_channel N used (n + 1)).zero]
    by_cases hu : ∃ q ∈ used, q < n + 1
    swap
    · exact ⟨e, by unfold DetNoise.apply; rw [if_neg hz, if_neg hne, if_neg hu], h, fun x y => by rw [channel_none N hu]⟩
    have hw : e.w ≠ 0 := fun h0 => hz ⟨h.zero h0, h0⟩
    have hc := expand_ecan h.ok.can hu hl
    obtain ⟨hs1, hs2⟩ := h.ok.shape.expand n
    have qx : Mix (quad n (expand n e.p)) := by
      refine (h.mix.smul (z := 1 / e.w) (Nonneg.one.div h.ok.real)).congr fun x y => ?_
      rw [dens_succ]; field_simp
    have hrec : ∀ b : RC, ∃ r, N.apply used (if b.1 = b.2 then false else true) n (expand n e.p b) = some r ∧ MCan n r.p ∧
        (b.1 = b.2 → DensOk n r ∧ ∀ x y, r.dens n x y = N.channel used n ((expand n e.p b).dens n) x y) ∧
        (b.1 ≠ b.2 → ∀ x y, r.mat n x y = N.channel used n ((expand n e.p b).mat n) x y) := by
      rintro ⟨b1, b2⟩
      by_cases hb : b1 = b2
      · subst hb
        obtain ⟨r, k1, k2, k3⟩ := apply_dens hN hne n (expand n e.p (b1, b1))
          ⟨⟨expand_can h.ok.can _, (hs2 b1).1, (hs2 b1).2⟩, (hc _).1.1, qx.block b1⟩ (hc _).2
        exact ⟨r, by rw [if_pos rfl]; exact k1, k2.ok.can, fun _ => ⟨k2, k3⟩, fun h => absurd rfl h⟩
      · obtain ⟨r, k1, k2, k3⟩ := apply_mat hN hne n (expand n e.p (b1, b2)) (hc _).1 (hc _).2
        exact ⟨r, by rw [if_neg hb]; exact k1, k2.can, fun h => absurd h hb, fun _ => k3⟩
    choose g hg using hrec
    have hnew := apply_new (N := N) (first := false) hu hl g (fun b => (hg b).1) (fun _ => hs1)
    have goff : g (false, true) = g (true, false) := by
      have h1 := (hg (false, true)).1
      have h2 := (hg (true, false)).1
      simp only [Bool.false_eq_true, Bool.true_eq_false, if_false, hs1] at h1 h2
      exact Option.some.inj (h1.symm.trans h2)
    have gq : QuadOk n g := ⟨fun b => (hg b).2.1, goff, fun b => ((hg (b, b)).2.2.1 rfl).1.ok⟩
    have gm : quad n g = N.channel used n (quad n (expand n e.p)) := by
      funext x y
      have G := goodOp_channel N used n
      rw [quad]
      by_cases hxy : x n = y n
      · rw [if_pos hxy, ← hxy, ((hg (x n, x n)).2.2.1 rfl).2]
        refine G.loc _ _ _ _ fun x' y' hx hy => ?_
        rw [quad, hx n le_rfl, hy n le_rfl, if_pos hxy, ← hxy]
      · rw [if_neg hxy]
        by_cases hx0 : x n = false
        · rw [if_pos hx0, (hg (false, true)).2.2.2 (by simp)]
          refine G.loc _ _ _ _ fun x' y' hx hy => ?_
          rw [quad, hx n le_rfl, hy n le_rfl, if_neg hxy, if_pos hx0]
        · rw [if_neg hx0, (hg (true, false)).2.2.2 (by simp), G.adj]
          refine G.loc _ _ _ _ fun x' y' hx hy => ?_
          rw [quad, hx n le_rfl, hy n le_rfl, if_neg hxy, if_neg hx0]
    have G := goodOp_channel N used (n + 1)
    have hstep : ∃ e', (if n ∈ used then N.steps used N.effects g else some g) = some e' ∧ QuadOk n e' ∧
        quad n e' = N.channel used (n + 1) (quad n (expand n e.p)) := by
      by_cases hn : n ∈ used
      · obtain ⟨e', k1, k2, k3⟩ := steps_quad hN used N.effects gq (gm ▸ (goodOp_channel N used n).mix _ qx)
        refine ⟨e', by rw [if_pos hn, k1], k2, ?_⟩
        rw [k3, DetNoise.channel, if_pos hn, DetNoise.chanQ, gm]
      · exact ⟨g, by rw [if_neg hn], gq, by rw [gm, DetNoise.channel, if_neg hn]⟩
    obtain ⟨e', k1, k2, k3⟩ := hstep
    have hm : Mix (quad n e') := k3 ▸ G.mix _ qx
    obtain ⟨m1, m2⟩ := makeM_quad k2 hm
    have hcan := makeM_can (n := n) (e := e') fun b _ => k2.can b
    have hval : ∀ x y, (finish n e.w e').dens (n + 1) x y = N.channel used (n + 1) (e.dens (n + 1)) x y := by
      intro x y
      have e1 : (finish n e.w e').dens (n + 1) x y = e.w * (makeM n e').dens (n + 1) x y := by
        rw [Edge.dens, finish_p, finish_mul, Edge.dens]; ring
      rw [e1, m2, k3, ← G.smul]
      rfl
    refine ⟨finish n e.w e', ?_, ⟨⟨?_, ?_, ?_⟩, fun h0 => ?_, (G.mix _ h.mix).congr hval⟩, hval⟩
    · unfold DetNoise.apply
      rw [if_neg hz, if_neg hne, if_pos hu, hnew, Option.bind_some, k1, Option.map_some]
    · rw [finish_p]; exact m1.can
    · rw [finish_p]; exact m1.shape
    · rw [finish_mul]; exact h.ok.real.mul m1.real
    · rw [finish_p]; exact hcan.1 (finish_w hw e' h0)

end MQT.DD
