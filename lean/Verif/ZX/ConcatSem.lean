/-
Concatenation of diagrams: the linear map.
-/
import Verif.ZX.ConcatProof

set_option autoImplicit false

noncomputable section

open Classical

open Function (update)

namespace MQT.ZX

open Diagram

/-! ### Sums over bits -/

theorem sumOver_update {L : Finset ℕ} {i : ℕ} (hi : i ∉ L) (g : (ℕ → Bool) → ℂ) (b : ℕ → Bool) (p : Bool) :
    sumOver L g (update b i p) = sumOver L (fun x => g (update x i p)) b := by
  unfold sumOver
  apply Finset.sum_congr rfl
  intro S _
  congr 1
  funext v
  by_cases hv : v = i
  · subst hv
    rw [Function.update_self, if_neg hi, Function.update_self]
  · rw [Function.update_of_ne hv, Function.update_of_ne hv]

theorem sumOver_base {L : Finset ℕ} {g : (ℕ → Bool) → ℂ} {S : Finset ℕ} (hg : ∀ x x', (∀ v ∈ S, x v = x' v) → g x = g x')
    {b b' : ℕ → Bool} (hb : ∀ v ∈ S, v ∉ L → b v = b' v) : sumOver L g b = sumOver L g b' := by
  unfold sumOver
  apply Finset.sum_congr rfl
  intro T _
  apply hg
  intro v hv
  by_cases hL : v ∈ L
  · rw [if_pos hL, if_pos hL]
  · rw [if_neg hL, if_neg hL]
    exact hb v hv hL

theorem sumOver_comm (A B : Finset ℕ) (g : (ℕ → Bool) → (ℕ → Bool) → ℂ) (a b : ℕ → Bool) :
    sumOver A (fun z => sumOver B (fun s => g z s) b) a = sumOver B (fun s => sumOver A (fun z => g z s) a) b := by
  unfold sumOver
  exact Finset.sum_comm

theorem sumOver_prod (h : ℕ → Bool → ℂ) (b : ℕ → Bool) : ∀ n : ℕ,
    sumOver (Finset.range n) (fun z => ∏ k ∈ Finset.range n, h k (z k)) b = ∏ k ∈ Finset.range n, (h k false + h k true)
  | 0 => by simp [sumOver]
  | n + 1 => by
    rw [Finset.range_add_one, sumOver_insert Finset.notMem_range_self, Finset.prod_insert Finset.notMem_range_self, ← sumOver_prod h b n,
      ← sumOver_mul]
    apply sumOver_congr
    intro z
    rw [Finset.prod_insert Finset.notMem_range_self, Finset.prod_insert Finset.notMem_range_self, Function.update_self,
      Function.update_self]
    have : ∀ p, ∏ k ∈ Finset.range n, h k (update z n p k) = ∏ k ∈ Finset.range n, h k (z k) := by
      intro p
      apply Finset.prod_congr rfl
      intro k hk
      rw [Function.update_of_ne (by have := Finset.mem_range.1 hk; omega)]
    rw [this, this]
    ring

theorem prod_list_range (f : ℕ → ℂ) (l : List ℕ) : (l.map f).prod = ∏ k ∈ Finset.range l.length, f (l.getD k 0) := by
  induction l using List.reverseRecOn with
  | nil => simp
  | append_singleton l a ih =>
    rw [List.map_append, List.prod_append, ih, List.length_append, List.length_singleton, Finset.prod_range_succ]
    congr 1
    · apply Finset.prod_congr rfl
      intro k hk
      rw [List.getD_eq_getElem?_getD, List.getD_eq_getElem?_getD, List.getElem?_append_left (Finset.mem_range.1 hk)]
    · simp

namespace Diagram

section
variable {n : ℕ} {D R : Diagram} {nw : ℕ → ℕ}

/-! ### The copy of `R` -/

/-- The bits of `R`, from those of the copy. -/
def pull (R : Diagram) (nw : ℕ → ℕ) (s : ℕ → Bool) (i : ℕ) : Bool := if R.Kept i then s (nw i) else false

theorem pull_update (hinj : ∀ i j, R.Kept i → R.Kept j → nw i = nw j → i = j) {i : ℕ} (hi : R.Kept i) (s : ℕ → Bool) (p : Bool) :
    pull R nw (update s (nw i) p) = update (pull R nw s) i p := by
  funext j
  unfold pull
  by_cases hj : j = i
  · subst hj
    rw [Function.update_self, if_pos hi, Function.update_self]
  · rw [Function.update_of_ne hj]
    by_cases hk : R.Kept j
    · rw [if_pos hk, if_pos hk, Function.update_of_ne fun e => hj (hinj j i hk hi e)]
    · rw [if_neg hk, if_neg hk]

theorem vsum_eq (hinj : ∀ i j, R.Kept i → R.Kept j → nw i = nw j → i = j) (ρ : ℕ → ℝ) (H : (ℕ → Bool) → (ℕ → Bool) → ℂ)
    (hH : ∀ i, R.Kept i → ∀ s p, H (update s (nw i) p) = H s) : ∀ (l : List ℕ), l.Nodup → (∀ i ∈ l, R.Kept i) → ∀ s,
    vsum R nw ρ l (fun s => H s (pull R nw s)) s =
      sumOver (l.filter fun i => (graph R).ty i ≠ .boundary).toFinset (fun r => (l.map fun i => (graph R).vf ρ r i).prod * H s r)
        (pull R nw s)
  | [], _, _, s => by
    simp [vsum, sumOver_empty]
  | i :: l, hn, hk, s => by
    obtain ⟨h1, h2⟩ := List.nodup_cons.1 hn
    have hki := hk i List.mem_cons_self
    obtain ⟨d, hd⟩ := hki.1
    have ih := vsum_eq hinj ρ H hH l h2 fun j hj => hk j (List.mem_cons_of_mem _ hj)
    have e : vsum R nw ρ (i :: l) (fun s => H s (pull R nw s)) s =
        vstep ρ (some d) (nw i) (vsum R nw ρ l fun s => H s (pull R nw s)) s := by
      unfold vsum
      rw [List.foldr_cons, hd]
    have hvd : (graph R).vert i = some d := hd
    rw [e]
    unfold vstep
    simp only
    by_cases hb : d.type = .boundary
    · rw [if_pos hb, ih, List.filter_cons_of_neg (by rw [ty_of_vert hd]; simpa using hb)]
      apply sumOver_congr
      intro r
      have : (graph R).vf ρ r i = 1 := by
        unfold Graph.vf
        rw [hvd]
        simp [hb]
      rw [List.map_cons, List.prod_cons, this, one_mul]
    · rw [if_neg hb, ih, ih, hH i hki, hH i hki, pull_update hinj hki, pull_update hinj hki,
        List.filter_cons_of_pos (by rw [ty_of_vert hd]; simpa using hb), List.toFinset_cons]
      have hni : i ∉ (l.filter fun i => (graph R).ty i ≠ .boundary).toFinset := by
        rw [List.mem_toFinset]
        exact fun hc => h1 (List.mem_filter.1 hc).1
      rw [sumOver_insert hni, sumOver_update hni, sumOver_update hni, ← sumOver_mul, ← sumOver_add]
      apply sumOver_congr
      intro r
      have hv : ∀ p, (graph R).vf ρ (update r i p) i = if p = true then d.phase.u ρ else 1 := by
        intro p
        unfold Graph.vf
        rw [hvd]
        simp only
        rw [Function.update_self]
        by_cases hp : p = true
        · rw [if_pos ⟨hb, hp⟩, if_pos hp]
        · rw [if_neg fun hc => hp hc.2, if_neg hp]
      simp only [List.map_cons, List.prod_cons]
      rw [hv, hv, if_neg (by simp), if_pos rfl]
      ring

/-! ### The edges of `R` -/

/-- The weights of the edges between vertices that are copied. -/
def kprod (R : Diagram) (l : List ℕ) (r : ℕ → Bool) : ℂ :=
  (l.map fun i => ((R.adj i).map fun e => if e.tgt ∈ R.inputs then 1 else
    if i < e.tgt then ew e.type ((graph R).ty i) ((graph R).ty e.tgt) (r i) (r e.tgt) else 1).prod).prod

theorem listW_kept (h : R.Inv) (ρ : ℕ → ℝ) (r : ℕ → Bool) : ∀ l : List ℕ, l.Pairwise (· < ·) → (∀ i ∈ l, R.Kept i) →
    (∀ i ∈ l, ∀ j, R.Kept j → i < j → j ∈ l) → listW R ρ r l = (l.map fun i => (graph R).vf ρ r i).prod * kprod R l r
  | [], _, _, _ => by simp [listW, kprod]
  | i :: l, hp, hk, hu => by
    obtain ⟨h1, h2⟩ := List.pairwise_cons.1 hp
    have ih := listW_kept h ρ r l h2 (fun j hj => hk j (List.mem_cons_of_mem _ hj)) (by
      intro j hj j' hj' hlt
      rcases List.mem_cons.1 (hu j (List.mem_cons_of_mem _ hj) j' hj' hlt) with e | e
      · subst e
        have := h1 j hj
        omega
      · exact e)
    unfold listW
    rw [ih]
    unfold kprod
    simp only [List.map_cons, List.prod_cons]
    have : ((R.adj i).map fun e => if e.tgt ∈ l then ew e.type ((graph R).ty i) ((graph R).ty e.tgt) (r i) (r e.tgt) else 1) =
        (R.adj i).map fun e => if e.tgt ∈ R.inputs then 1 else
          if i < e.tgt then ew e.type ((graph R).ty i) ((graph R).ty e.tgt) (r i) (r e.tgt) else 1 := by
      apply List.map_congr_left
      intro e he
      obtain ⟨ha, _⟩ := h.nb i (hk i List.mem_cons_self).1 e he
      by_cases hin : e.tgt ∈ R.inputs
      · rw [if_pos hin, if_neg]
        exact fun hc => (hk _ (List.mem_cons_of_mem _ hc)).2 hin
      · rw [if_neg hin]
        by_cases hlt : i < e.tgt
        · rw [if_pos hlt, if_pos]
          rcases List.mem_cons.1 (hu i List.mem_cons_self e.tgt ⟨ha, hin⟩ hlt) with e' | e'
          · omega
          · exact e'
        · rw [if_neg hlt, if_neg]
          exact fun hc => hlt (h1 _ hc)
    rw [this]
    ring

theorem keptList_sorted : R.keptList.Pairwise (· < ·) := List.Pairwise.filter _ List.pairwise_lt_range

theorem keptList_nodup : R.keptList.Nodup := List.Nodup.filter _ List.nodup_range

theorem keptList_toFinset (h : R.Inv) : R.keptList.toFinset = R.verts \ R.inputs.toFinset := by
  ext i
  rw [List.mem_toFinset, mem_keptList h, Finset.mem_sdiff, h.mem_verts, List.mem_toFinset]
  rfl

theorem W_kept (h : R.Inv) (ρ : ℕ → ℝ) (r : ℕ → Bool) :
    (graph R).W ρ (R.verts \ R.inputs.toFinset) r = (R.keptList.map fun i => (graph R).vf ρ r i).prod * kprod R R.keptList r := by
  rw [← keptList_toFinset h, W_list h ρ r R.keptList keptList_nodup fun i hi => ((mem_keptList h).1 hi).1]
  apply listW_kept h ρ r _ keptList_sorted
  · exact fun i hi => (mem_keptList h).1 hi
  · exact fun _ _ j hj _ => (mem_keptList h).2 hj

theorem prod_edges (P : Finset ℕ) (φ : ℕ → EType → ℂ) : ∀ l : List Edge,
    (l.map fun e => if e.tgt ∈ P then φ e.tgt e.type else 1).prod =
      ∏ p ∈ P, φ p .simple ^ l.count ⟨p, .simple⟩ * φ p .hadamard ^ l.count ⟨p, .hadamard⟩
  | [] => by simp
  | e :: l => by
    rw [List.map_cons, List.prod_cons, prod_edges P φ l]
    by_cases he : e.tgt ∈ P
    · rw [if_pos he, ← Finset.mul_prod_erase P _ he, ← Finset.mul_prod_erase P _ he, ← mul_assoc]
      congr 1
      · obtain ⟨w, t⟩ := e
        cases t
        · simp [pow_succ]; ring
        · simp [pow_succ]; ring
      · apply Finset.prod_congr rfl
        intro p hp
        have hne : e.tgt ≠ p := fun e' => Finset.ne_of_mem_erase hp e'.symm
        have : ∀ t, (e :: l).count ⟨p, t⟩ = l.count ⟨p, t⟩ := by
          intro t
          rw [List.count_cons_of_ne]
          intro hc
          exact hne (by rw [hc])
        rw [this, this]
    · rw [if_neg he, one_mul]
      apply Finset.prod_congr rfl
      intro p hp
      have hne : e.tgt ≠ p := by rintro rfl; exact he hp
      have : ∀ t, (e :: l).count ⟨p, t⟩ = l.count ⟨p, t⟩ := by
        intro t
        rw [List.count_cons_of_ne]
        intro hc
        exact hne (by rw [hc])
      rw [this, this]

/-- The edges to the inputs, seen from the other side. -/
theorem prod_inputs (J : Joins n D R) (φ : ℕ → EType → ℕ → ℂ) :
    (R.keptList.map fun i => ((R.adj i).map fun e => if e.tgt ∈ R.inputs then φ e.tgt e.type i else 1).prod).prod =
      (R.inputs.map fun p => φ p (R.end1 p).type (R.end1 p).tgt).prod := by
  have h := J.invR
  rw [← List.prod_toFinset _ keptList_nodup, ← List.prod_toFinset _ J.endsR.nodup]
  have e1 : ∀ i ∈ R.keptList.toFinset, ((R.adj i).map fun e => if e.tgt ∈ R.inputs then φ e.tgt e.type i else 1).prod =
      ∏ p ∈ R.inputs.toFinset, φ p .simple i ^ (R.adj p).count ⟨i, .simple⟩ * φ p .hadamard i ^ (R.adj p).count ⟨i, .hadamard⟩ := by
    intro i hi
    have hk := (mem_keptList h).1 (List.mem_toFinset.1 hi)
    have := prod_edges R.inputs.toFinset (fun p t => φ p t i) (R.adj i)
    simp only [List.mem_toFinset] at this
    rw [this]
    apply Finset.prod_congr rfl
    intro p hp
    have hp' := J.endsR.alive p (List.mem_toFinset.1 hp)
    have hs : ∀ t, (R.adj i).count ⟨p, t⟩ = (R.adj p).count ⟨i, t⟩ := fun t => h.sym i p t hk.1 hp'
    rw [hs, hs]
  rw [Finset.prod_congr rfl e1, Finset.prod_comm]
  apply Finset.prod_congr rfl
  intro p hp
  have hp' := List.mem_toFinset.1 hp
  rw [← prod_edges R.keptList.toFinset (fun i t => φ p t i) (R.adj p), J.endsR.one p hp']
  simp only [List.map_cons, List.map_nil, List.prod_cons, List.prod_nil, mul_one]
  rw [if_pos]
  rw [List.mem_toFinset, mem_keptList h]
  refine ⟨(h.nb p (J.endsR.alive p hp') _ ?_).1, J.endsR.ne p hp'⟩
  rw [J.endsR.one p hp']
  exact List.mem_singleton.2 rfl

/-! ### The weight of the copy -/

/-- The factor from the edge that replaces the output and input of one wire. -/
def jfac (D R : Diagram) (s r : ℕ → Bool) (p : ℕ) : ℂ :=
  ew (joinType (D.end1 (D.partner R p)).type (R.end1 p).type) ((graph D).ty (D.end1 (D.partner R p)).tgt) ((graph R).ty (R.end1 p).tgt)
    (s (D.end1 (D.partner R p)).tgt) (r (R.end1 p).tgt)

theorem eprod_eq (J : Joins n D R) (s : ℕ → Bool) :
    eprod D R nw s = kprod R R.keptList (pull R nw s) * (R.inputs.map (jfac D R s (pull R nw s))).prod := by
  have h := J.invR
  have e := prod_inputs J fun p t i =>
    ew (joinType (D.end1 (D.partner R p)).type t) ((graph D).ty (D.end1 (D.partner R p)).tgt) ((graph R).ty i)
      (s (D.end1 (D.partner R p)).tgt) (pull R nw s i)
  have e' : (R.inputs.map (jfac D R s (pull R nw s))).prod = _ := e.symm
  rw [e']
  unfold eprod kprod
  rw [← List.prod_map_mul]
  congr 1
  apply List.map_congr_left
  intro i hi
  have hk := (mem_keptList h).1 hi
  rw [← List.prod_map_mul]
  congr 1
  apply List.map_congr_left
  intro e he
  obtain ⟨ha, _⟩ := h.nb i hk.1 e he
  have p1 : pull R nw s i = s (nw i) := if_pos hk
  unfold efac
  by_cases hin : e.tgt ∈ R.inputs
  · rw [if_pos hin, if_pos hin, if_pos hin, one_mul, p1]
  · have p2 : pull R nw s e.tgt = s (nw e.tgt) := if_pos ⟨ha, hin⟩
    rw [if_neg hin, if_neg hin, if_neg hin, mul_one, p1, p2]

theorem inner_kept (J : Joins n D R) : (R.keptList.filter fun i => (graph R).ty i ≠ .boundary).toFinset = R.inner := by
  ext i
  rw [List.mem_toFinset, List.mem_filter, mem_keptList J.invR, mem_inner J.invR]
  constructor
  · rintro ⟨_, h⟩; simpa using h
  · intro h
    refine ⟨⟨alive_of_inner h, fun hc => h (J.endsR.ty i hc)⟩, by simpa using h⟩

theorem copy_sum (J : Joins n D R) {D1 : Diagram} (C : Copied D.outputs.toFinset D R R.keptList D1 nw) (ρ : ℕ → ℝ) (s : ℕ → Bool) :
    vsum R nw ρ R.keptList (eprod D R nw) s =
      sumOver R.inner (fun r => (graph R).W ρ (R.verts \ R.inputs.toFinset) r * (R.inputs.map (jfac D R s r)).prod) (pull R nw s) := by
  have hm : ∀ i, R.Kept i → i ∈ R.keptList := fun i hi => (mem_keptList J.invR).2 hi
  have hf : eprod D R nw = fun s => kprod R R.keptList (pull R nw s) * (R.inputs.map (jfac D R s (pull R nw s))).prod :=
    funext fun s => eprod_eq J s
  rw [hf, vsum_eq (fun i j hi hj e => C.inj i (hm i hi) j (hm j hj) e) ρ
    (fun s r => kprod R R.keptList r * (R.inputs.map (jfac D R s r)).prod), inner_kept J]
  · apply sumOver_congr
    intro r
    rw [W_kept J.invR]
    ring
  · intro i hi s p
    funext r
    congr 2
    apply List.map_congr_left
    intro q hq
    unfold jfac
    have hne : (D.end1 (D.partner R q)).tgt ≠ nw i := by
      intro e
      have hp := (partner_eq J hq).2.2
      have := (J.invD.nb _ (J.endsD.alive _ hp) (D.end1 (D.partner R q)) (by
        rw [J.endsD.one _ hp]; exact List.mem_singleton.2 rfl)).1
      exact (C.new i (hm i hi)).1 (e ▸ this)
    rw [Function.update_of_ne hne]
  · exact keptList_nodup
  · exact fun i hi => (mem_keptList J.invR).1 hi

/-! ### The two diagrams -/

theorem W_base {D : Diagram} (ρ : ℕ → ℝ) (V : Finset ℕ) {x x' : ℕ → Bool} (h : ∀ v ∈ V, x v = x' v) :
    (graph D).W ρ V x = (graph D).W ρ V x' :=
  Graph.W_congr ρ (fun _ _ => rfl) (fun _ _ _ _ _ => rfl) h

/-- The value, with the vertices `ps` taken out. -/
theorem val_ends {D : Diagram} (h : D.Inv) {ps : List ℕ} (hp : D.Ends ps) (ρ : ℕ → ℝ) {β β' z : ℕ → Bool}
    (hz : ∀ k < ps.length, β (ps.getD k 0) = z k) (hβ : ∀ v ∈ D.verts \ ps.toFinset, v ∉ D.inner → β v = β' v) :
    val ρ D β = D.globalPhase.u ρ * sumOver D.inner (fun s => (graph D).W ρ (D.verts \ ps.toFinset) s *
      ∏ k ∈ Finset.range ps.length, ew (D.end1 (ps.getD k 0)).type .boundary ((graph D).ty (D.end1 (ps.getD k 0)).tgt) (z k)
        (s (D.end1 (ps.getD k 0)).tgt)) β' := by
  have hmem : ∀ k < ps.length, ps.getD k 0 ∈ ps := by
    intro k hk
    rw [List.getD_eq_getElem?_getD, List.getElem?_eq_getElem hk]
    exact List.getElem_mem hk
  unfold val
  congr 1
  rw [← sumOver_base (S := D.verts \ ps.toFinset) (b := β) (b' := β') _ hβ]
  · apply sumOver_congr_on
    intro s hs
    rw [W_ends h hp ρ s ps hp.nodup fun _ hq => hq, prod_list_range]
    congr 1
    apply Finset.prod_congr rfl
    intro k hk
    have hk' := Finset.mem_range.1 hk
    have : s (ps.getD k 0) = z k := by
      rw [hs, hz k hk']
      rw [mem_inner h]
      exact fun hc => hc (hp.ty _ (hmem k hk'))
    rw [this]
  · intro x x' hx
    rw [W_base ρ _ hx]
    congr 1
    apply Finset.prod_congr rfl
    intro k hk
    have hk' := hmem k (Finset.mem_range.1 hk)
    have : x (D.end1 (ps.getD k 0)).tgt = x' (D.end1 (ps.getD k 0)).tgt := by
      apply hx
      rw [Finset.mem_sdiff, h.mem_verts, List.mem_toFinset]
      refine ⟨(h.nb _ (hp.alive _ hk') (D.end1 (ps.getD k 0)) ?_).1, hp.ne _ hk'⟩
      rw [hp.one _ hk']
      exact List.mem_singleton.2 rfl
    rw [this]

end

end Diagram

end MQT.ZX
