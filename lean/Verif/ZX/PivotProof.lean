/-
The Pauli pivot preserves the linear map.
-/
import Verif.ZX.RulesProof

set_option autoImplicit false

noncomputable section

open Classical

open Function (update)

namespace MQT.ZX

open Diagram

namespace Diagram

/-- The weights of the edges of `v` other than those to `w`, for bit `p` of `v`. -/
def legsBut (D : Diagram) (w v : ℕ) (p : Bool) (x : ℕ → Bool) : ℂ :=
  ((D.adj v).map fun e => if e.tgt ≠ w then ew e.type ((graph D).ty v) ((graph D).ty e.tgt) p (x e.tgt) else 1).prod

/-- A rule that changes phases and edges, and then removes two spiders. -/
theorem same_of_step2 {D D₁ : Diagram} (h : D.Inv) {v0 v1 : ℕ} (hne : v0 ≠ v1) {d0 d1 : VData} (hd0 : D.vert v0 = some d0)
    (hd1 : D.vert v1 = some d1) (hb0 : d0.type ≠ .boundary) (hb1 : d1.type ≠ .boundary) {P : ℕ → ℕ → Prop}
    {F : (ℕ → ℝ) → (ℕ → Bool) → ℂ} (s : Step ((D.verts.erase v0).erase v1) D D₁ P F) (gp : Phase) (k : ℝ) (hk : 0 < k)
    (g : (ℕ → ℝ) → ℂ) (hg : ∀ ρ, gp.u ρ = D.globalPhase.u ρ * g ρ)
    (hsum : ∀ ρ x,
      (D.legs v0 false (update x v1 false) + d0.phase.u ρ * D.legs v0 true (update x v1 false)) * D.legsBut v0 v1 false x +
      (D.legs v0 false (update x v1 true) + d0.phase.u ρ * D.legs v0 true (update x v1 true)) *
        (d1.phase.u ρ * D.legsBut v0 v1 true x) = k * g ρ * F ρ x) :
    D.Same ((({ D₁ with globalPhase := gp } : Diagram).without v0).without v1) := by
  refine ⟨s.inputs, s.outputs, k, hk, fun ρ b => ?_⟩
  have a0 : D.Alive v0 := ⟨d0, hd0⟩
  have a1 : D.Alive v1 := ⟨d1, hd1⟩
  have hv0 : v0 ∈ D.inner := (mem_inner h).2 (by rw [ty_of_vert hd0]; exact hb0)
  have hv1 : v1 ∈ D.inner.erase v0 := Finset.mem_erase.2 ⟨hne.symm, (mem_inner h).2 (by rw [ty_of_vert hd1]; exact hb1)⟩
  have hv1' : v1 ∈ D.verts.erase v0 := Finset.mem_erase.2 ⟨hne.symm, h.mem_verts.2 a1⟩
  have a0' : D₁.Alive v0 := (s.alive v0).2 a0
  have a1' : (D₁.without v0).Alive v1 := (without_alive _ _ _).2 ⟨(s.alive v1).2 a1, hne.symm⟩
  have e1 : ((({ D₁ with globalPhase := gp } : Diagram).without v0).without v1).verts = (D.verts.erase v0).erase v1 := by
    rw [without_verts, without_verts]
    show (D₁.verts.erase v0).erase v1 = _
    rw [s.verts]
  have e2 : ((({ D₁ with globalPhase := gp } : Diagram).without v0).without v1).inner = (D.inner.erase v0).erase v1 := by
    have : ((({ D₁ with globalPhase := gp } : Diagram).without v0).without v1).inner = ((D₁.without v0).without v1).inner := rfl
    rw [this, without_inner (without_inv s.inv a0') a1', without_inner s.inv a0', s.inner]
  have e3 : ∀ x, (graph ((({ D₁ with globalPhase := gp } : Diagram).without v0).without v1)).W ρ ((D.verts.erase v0).erase v1) x =
      (graph D).W ρ ((D.verts.erase v0).erase v1) x * F ρ x := by
    intro x
    rw [W_without ρ _ v1 (Finset.notMem_erase v1 _), W_without ρ _ v0, ← s.W]
    · rfl
    · intro hm
      exact Finset.notMem_erase v0 _ (Finset.mem_of_mem_erase hm)
  unfold val
  rw [e1, e2]
  have hL : D.inner = insert v0 (D.inner.erase v0) := (Finset.insert_erase hv0).symm
  have hL' : D.inner.erase v0 = insert v1 ((D.inner.erase v0).erase v1) := (Finset.insert_erase hv1).symm
  conv_lhs => rw [hL]
  rw [sumOver_insert (Finset.notMem_erase v0 _)]
  conv_lhs => rw [hL']
  rw [sumOver_insert (Finset.notMem_erase v1 _),
    sumOver_congr (g := fun x => ((k : ℂ) * g ρ) *
      (graph ((({ D₁ with globalPhase := gp } : Diagram).without v0).without v1)).W ρ ((D.verts.erase v0).erase v1) x),
    sumOver_mul]
  · show _ = _ * (gp.u ρ * _)
    rw [hg]
    ring
  · intro x
    rw [e3, sum_vertex ρ h hd0 hb0, sum_vertex ρ h hd0 hb0]
    have one : ∀ q, (graph D).W ρ (D.verts.erase v0) (update x v1 q) =
        (if q = true then d1.phase.u ρ else 1) * D.legsBut v0 v1 q x * (graph D).W ρ ((D.verts.erase v0).erase v1) x := by
      intro q
      rw [Graph.W_erase ρ (graph_symm h) _ hv1', vf_inner ρ hd1 hb1, Function.update_self,
        prod_pf h ((Finset.erase_subset _ _).trans (Finset.erase_subset _ _)) _ a1]
      congr 1
      · congr 1
        unfold legsBut
        congr 1
        apply List.map_congr_left
        intro e he
        obtain ⟨n1, n2⟩ := h.nb v1 a1 e he
        by_cases hx : e.tgt = v0
        · rw [if_neg, if_neg (not_not.2 hx)]
          rw [hx]
          intro hm
          exact Finset.notMem_erase v0 _ (Finset.mem_of_mem_erase hm)
        · rw [if_pos (Finset.mem_erase.2 ⟨n2, Finset.mem_erase.2 ⟨hx, h.mem_verts.2 n1⟩⟩), if_pos hx, Function.update_self,
            Function.update_of_ne n2]
      · apply Graph.W_congr
        · intro _ _; rfl
        · intro _ _ _ _ _; rfl
        · intro w hw
          rw [Function.update_of_ne (Finset.mem_erase.1 hw).1]
    rw [one, one]
    simp only [Bool.false_eq_true, if_false, if_true, one_mul]
    linear_combination (graph D).W ρ ((D.verts.erase v0).erase v1) x * hsum ρ x

/-- The product of the signs of the neighbours other than `w`. -/
def signs (w : ℕ) (x : ℕ → Bool) (l : List Edge) : ℂ := (l.map fun e => if e.tgt ≠ w then sg true (x e.tgt) else 1).prod

theorem signs_sq (w : ℕ) (x : ℕ → Bool) (l : List Edge) : signs w x l = 1 ∨ signs w x l = -1 := by
  unfold signs
  induction l with
  | nil => simp
  | cons e r ih =>
    rw [List.map_cons, List.prod_cons]
    unfold sg at ih ⊢
    by_cases hw : e.tgt = w
    · simpa [hw] using ih
    · cases x e.tgt <;> rcases ih with h | h <;> simp [hw] at h ⊢ <;> rw [h] <;> simp

/-- Signs on the neighbours other than `w`. -/
theorem prod_signs (w : ℕ) (x : ℕ → Bool) (l : List Edge) (c : ℂ) (hc : c = 1 ∨ c = -1) :
    (l.map fun e => if e.tgt ≠ w then (if x e.tgt = true then c else 1) else 1).prod = if c = -1 then signs w x l else 1 := by
  rcases hc with rfl | rfl
  · have h1 : ¬ (1 : ℂ) = -1 := by norm_num
    rw [if_neg h1]
    have : ∀ e : Edge, (if e.tgt ≠ w then (if x e.tgt = true then (1 : ℂ) else 1) else 1) = 1 := fun e => by simp
    simp only [this]
    simp
  · rw [if_pos rfl]
    unfold signs sg
    simp

theorem legsBut_hzz {D : Diagram} {w v : ℕ} (hv : (graph D).ty v = .z)
    (hl : ∀ e ∈ D.adj v, (graph D).ty e.tgt = .z ∧ e.type = .hadamard) (p : Bool) (x : ℕ → Bool) :
    D.legsBut w v p x = if p = true then signs w x (D.adj v) else 1 := by
  have : D.legsBut w v p x = ((D.adj v).map fun e => if e.tgt ≠ w then sg p (x e.tgt) else 1).prod := by
    unfold legsBut
    congr 1
    apply List.map_congr_left
    intro e he
    obtain ⟨h1, h2⟩ := hl e he
    rw [h1, h2, hv, ew_hzz]
  rw [this]
  cases p
  · rw [if_neg (by simp)]
    have : ∀ e : Edge, (if e.tgt ≠ w then sg false (x e.tgt) else (1 : ℂ)) = 1 := fun e => by simp [sg]
    simp only [this]
    simp
  · rfl

/-- The edges of `v`, the one to `w` singled out. -/
theorem legs_split {D : Diagram} (h : D.Inv) (hs : D.Simple) {v w : ℕ} (ha : D.Alive v) (hv : (graph D).ty v = .z)
    (hl : ∀ e ∈ D.adj v, (graph D).ty e.tgt = .z ∧ e.type = .hadamard) (hw : ∃ e ∈ D.adj v, e.tgt = w) (q : Bool) (x : ℕ → Bool) :
    D.legs v true (update x w q) = sg true q * signs w x (D.adj v) := by
  rw [legs_hzz hv fun e he => (hl e he).symm, if_pos rfl]
  obtain ⟨e, he, rfl⟩ := hw
  obtain ⟨l₁, l₂, hadj⟩ := List.append_of_mem he
  obtain ⟨h1, h2⟩ := hs.distinct h ha hadj
  unfold signs
  rw [hadj]
  simp only [List.map_append, List.map_cons, List.prod_append, List.prod_cons, Function.update_self, ne_eq, not_true,
    if_false, one_mul]
  have e1 : ∀ l : List Edge, (∀ e' ∈ l, e'.tgt ≠ e.tgt) → (l.map fun e' => sg true (update x e.tgt q e'.tgt)).prod =
      (l.map fun e' => if ¬ e'.tgt = e.tgt then sg true (x e'.tgt) else 1).prod := by
    intro l hh
    congr 1
    apply List.map_congr_left
    intro e' he'
    rw [Function.update_of_ne (hh e' he'), if_pos (hh e' he')]
  rw [e1 l₁ h1, e1 l₂ h2]
  ring

theorem pivotPauli_sound {D : Diagram} (h : D.Good) {v0 v1 : ℕ} (hc : D.checkPivotPauli v0 v1) :
    ∃ D', D.pivotPauli v0 v1 = some D' ∧ D'.Good ∧ D.Same D' ∧ D'.verts = (D.verts.erase v0).erase v1 ∧ D'.size = D.size := by
  obtain ⟨ht0, ⟨p0, hp0, pa0⟩, ⟨p1, hp1, pa1⟩, hf, hl0, hl1⟩ := hc
  obtain ⟨a0, ty0⟩ := (type_eq_iff h.inv).1 ht0
  obtain ⟨a1, hne, hpos, _, _, hex1, hex0⟩ := edge_type h a0 hf
  have L0 : ∀ e ∈ D.adj v0, (graph D).ty e.tgt = .z ∧ e.type = .hadamard := fun e he =>
    ⟨((type_eq_iff h.inv).1 (hl0 e he).1).2, (hl0 e he).2⟩
  have L1 : ∀ e ∈ D.adj v1, (graph D).ty e.tgt = .z ∧ e.type = .hadamard := fun e he =>
    ⟨((type_eq_iff h.inv).1 (hl1 e he).1).2, (hl1 e he).2⟩
  have ty1 : (graph D).ty v1 = .z := by
    obtain ⟨e, he, hx⟩ := hex0
    rw [← hx]; exact (L0 e he).1
  obtain ⟨d0, hd0, rfl⟩ := phase_eq hp0
  obtain ⟨d1, hd1, rfl⟩ := phase_eq hp1
  have r0 := h.range v0 d0 hd0
  have r1 := h.range v1 d1 hd1
  have nb0 := h.inv.nb v0 a0
  have nb1 := h.inv.nb v1 a1
  set V := (D.verts.erase v0).erase v1 with hVdef
  have hV : ∀ w, D.Alive w → w ≠ v0 → w ≠ v1 → w ∈ V := fun w h1 h2 h3 =>
    Finset.mem_erase.2 ⟨h3, Finset.mem_erase.2 ⟨h2, h.inv.mem_verts.2 h1⟩⟩
  have hnV0 : v0 ∉ V := fun hm => Finset.notMem_erase v0 _ (Finset.mem_of_mem_erase hm)
  set X : ℕ → Prop := fun w => w = v0 ∨ w = v1 with hX
  -- the diagram after the change of the global phase
  set gp : Phase := if ¬ d0.phase.isZero ∧ ¬ d1.phase.isZero then D.globalPhase.add (Phase.ofRat 1) else D.globalPhase with hgp
  set D₀ : Diagram := { D with globalPhase := gp } with hD₀
  have hD₀' : (if ¬ d0.phase.isZero ∧ ¬ d1.phase.isZero then D.addGlobalPhase (Phase.ofRat 1) else D) = D₀ := by
    rw [hD₀, hgp]
    split_ifs <;> rfl
  have inv₀ : D₀.Inv := ⟨h.inv.out, h.inv.del, h.inv.nodup, h.inv.nv, h.inv.ne, h.inv.sym, h.inv.nb⟩
  have g0 : graph D₀ = graph D := rfl
  have unt : ∀ {P : ℕ → ℕ → Prop}, (∀ a b, P a b → Inside D X a b) →
      ∀ w, X w → ∀ z, ¬ P w z ∧ ¬ P z w := fun hP w hw z =>
    ⟨fun hp => (hP _ _ hp).1.1 hw, fun hp => (hP _ _ hp).1.2 hw⟩
  -- first loop
  obtain ⟨D₁, h1, s1⟩ := forEdges_step (D₀ := D₀) (V := V) (v := v0) (l := D₀.adj v0)
    (body := fun e D =>
      if e.tgt = v1 then some D
      else do
        let D' ← D.addPhase e.tgt d1.phase
        forEdges v1 (fun e' D => if e'.tgt ≠ v0 then D.addEdgeParallelAware e.tgt e'.tgt .hadamard else some D)
          (D'.adj v1) D') inv₀ (fun _ => Inside D X)
    (fun e ρ x => if e.tgt ≠ v1 then
      (if x e.tgt = true then d1.phase.u ρ else 1) * ((D.adj v1).map fun e' => if e'.tgt ≠ v0 then sg (x e.tgt) (x e'.tgt) else 1).prod
      else 1)
    (fun _ _ => unt (fun _ _ hP => hP) v0 (.inl rfl))
    (by
      intro l₁ e l₂ hl D₁ s1
      have he : e ∈ D.adj v0 := by
        show e ∈ D₀.adj v0
        rw [hl]; simp
      have s1 : Step V D₀ D₁ (Inside D X) _ := s1.mono (by rintro a b ⟨_, _, hP⟩; exact hP) (fun _ _ => rfl)
      by_cases hx : e.tgt = v1
      · refine ⟨D₁, by rw [if_pos hx], (Step.refl s1.inv).mono (fun _ _ h => h) ?_⟩
        intro ρ x
        rw [if_neg (not_not.2 hx)]
      · have eB : (graph D).ty e.tgt ≠ .boundary := by rw [(L0 e he).1]; simp
        have eA := (nb0 e he).1
        have eN := (nb0 e he).2
        obtain ⟨D₂, h2, s2⟩ := addPhase_step s1.inv V (v := e.tgt) (by rw [s1.ty]; exact eB) r1 (Inside D X)
        have s02 := s1.trans s2
        have s02' : Step V D₀ D₂ (Inside D X) _ := s02.mono (by rintro a b (hP | hP) <;> exact hP) (fun _ _ => rfl)
        have hadj : D₂.adj v1 = D.adj v1 := s02'.adj v1 (unt (fun _ _ hP => hP) v1 (.inr rfl))
        obtain ⟨D₃, h3, s3⟩ := forEdges_step (D₀ := D₂) (V := V) (v := v1) (l := D₂.adj v1)
          (body := fun e' D => if e'.tgt ≠ v0 then D.addEdgeParallelAware e.tgt e'.tgt .hadamard else some D) s2.inv
          (fun _ => Inside D X) (fun e' _ x => if e'.tgt ≠ v0 then sg (x e.tgt) (x e'.tgt) else 1)
          (fun _ _ => unt (fun _ _ hP => hP) v1 (.inr rfl))
          (by
            intro l₁ e' l₂ hl D₃ s3
            have he' : e' ∈ D.adj v1 := by rw [← hadj, hl]; simp
            by_cases hx' : e'.tgt = v0
            · refine ⟨D₃, by rw [if_neg (not_not.2 hx')], (Step.refl s3.inv).mono (fun _ _ h => h) ?_⟩
              intro ρ x
              rw [if_neg (not_not.2 hx')]
            · have s03 := s02.trans s3
              have eB' : (graph D).ty e'.tgt ≠ .boundary := by rw [(L1 e' he').1]; simp
              have eA' := (nb1 e' he').1
              have eN' := (nb1 e' he').2
              obtain ⟨D₄, h4, s4⟩ := epa_step s3.inv (s03.simple h.simple) (hV _ eA eN hx) (hV _ eA' hx' eN')
                ((s03.alive _).2 eA) ((s03.alive _).2 eA') .hadamard
                (.inl ⟨by rw [s03.ty]; exact eB, by rw [s03.ty]; exact eB'⟩)
              refine ⟨D₄, by rw [if_pos hx']; exact h4, s4.mono ?_ ?_⟩
              · rintro a b (⟨rfl, rfl⟩ | ⟨rfl, rfl⟩)
                · exact ⟨⟨by rintro (q | q); exacts [eN q, hx q], by rintro (q | q); exacts [hx' q, eN' q]⟩, eB, eB'⟩
                · exact ⟨⟨by rintro (q | q); exacts [hx' q, eN' q], by rintro (q | q); exacts [eN q, hx q]⟩, eB', eB⟩
              · intro ρ x
                rw [s03.ty, s03.ty, g0, (L0 e he).1, (L1 e' he').1, ew_hzz, if_pos hx'])
        refine ⟨D₃, ?_, (s2.trans s3).mono (by rintro a b (hP | ⟨_, _, hP⟩) <;> exact hP) ?_⟩
        · rw [if_neg hx, h2]
          simp only [Option.bind_eq_bind, Option.bind_some]
          exact h3
        · intro ρ x
          rw [if_pos hx, if_pos (hV _ eA eN hx), hadj])
  have s1 : Step V D₀ D₁ (Inside D X) _ := s1.mono (by rintro a b ⟨_, _, hP⟩; exact hP) (fun _ _ => rfl)
  have hadj1 : D₁.adj v1 = D.adj v1 := s1.adj v1 (unt (fun _ _ hP => hP) v1 (.inr rfl))
  -- second loop
  obtain ⟨D₂, h2, s2⟩ := forEdges_step (D₀ := D₁) (V := V) (v := v1) (l := D₁.adj v1)
    (body := fun e D => D.addPhase e.tgt d0.phase) s1.inv (fun _ => Inside D X)
    (fun e ρ x => if e.tgt ∈ V then (if x e.tgt = true then d0.phase.u ρ else 1) else 1)
    (fun _ _ => unt (fun _ _ hP => hP) v1 (.inr rfl))
    (by
      intro l₁ e l₂ hl D₂ s2
      have he : e ∈ D.adj v1 := by rw [← hadj1, hl]; simp
      have eB : (graph D).ty e.tgt ≠ .boundary := by rw [(L1 e he).1]; simp
      exact addPhase_step s2.inv V (v := e.tgt) (by rw [s2.ty, s1.ty]; exact eB) r0 (Inside D X))
  have s : Step V D₀ D₂ (Inside D X) _ := (s1.trans s2).mono (by rintro a b (hP | ⟨_, _, hP⟩) <;> exact hP) (fun _ _ => rfl)
  have b0 : D₂.Alive v0 := (s.alive v0).2 a0
  have b1 : (D₂.without v0).Alive v1 := (without_alive _ _ _).2 ⟨(s.alive v1).2 a1, hne.symm⟩
  have bdD₀ : D₀.Bd := h.bd
  refine ⟨(D₂.without v0).without v1, ?_, ⟨without_inv (without_inv s.inv b0) b1, without_simple (without_simple (s.simple h.simple) v0) v1,
    without_bd (without_bd (s.bd bdD₀) v0) v1, without_range (without_range (s.range h.range) v0) v1⟩, ?_, ?_⟩
  · unfold pivotPauli
    rw [hp0, hp1]
    simp only [Option.bind_eq_bind, Option.bind_some]
    rw [hD₀']
    simp only [Option.bind_eq_bind] at h1
    rw [h1, Option.bind_some, h2, Option.bind_some, removeVertex_eq s.inv b0, Option.bind_some]
    exact removeVertex_eq (without_inv s.inv b0) b1
  · have sD : Step V D { D₂ with globalPhase := D.globalPhase } (Inside D X) _ :=
      ⟨⟨s.inv.out, s.inv.del, s.inv.nodup, s.inv.nv, s.inv.ne, s.inv.sym, s.inv.nb⟩, s.simple, s.range, s.size, s.type, rfl,
        s.inputs, s.outputs, s.m, s.adj, s.W⟩
    have hz0 := Phase.pauli_cases pa0 r0
    have hz1 := Phase.pauli_cases pa1 r1
    have := same_of_step2 h.inv hne hd0 hd1 (by rw [← ty_of_vert hd0, ty0]; simp) (by rw [← ty_of_vert hd1, ty1]; simp)
      sD D₂.globalPhase 2 two_pos (fun _ => if ¬ d0.phase.isZero ∧ ¬ d1.phase.isZero then -1 else 1) ?_ ?_
    · exact this
    · intro ρ
      rw [s.gp]
      show gp.u ρ = _
      rw [hgp]
      split_ifs
      · rw [Phase.u_add, Phase.u_pi]
      · rw [mul_one]
    · intro ρ x
      rw [legs_split h.inv h.simple a0 ty0 L0 hex0, legs_split h.inv h.simple a0 ty0 L0 hex0,
        legs_hzz ty0 (fun e he => (L0 e he).symm), legs_hzz ty0 (fun e he => (L0 e he).symm),
        legsBut_hzz ty1 L1, legsBut_hzz ty1 L1]
      simp only [Bool.false_eq_true, if_false, if_true]
      -- the factor of the first loop
      have inner : ∀ e : Edge, ((D.adj v1).map fun e' => if e'.tgt ≠ v0 then sg (x e.tgt) (x e'.tgt) else 1).prod =
          if x e.tgt = true then signs v0 x (D.adj v1) else 1 := by
        intro e
        cases x e.tgt
        · have : ∀ e' : Edge, (if e'.tgt ≠ v0 then sg false (x e'.tgt) else (1 : ℂ)) = 1 := fun e => by simp [sg]
          simp only [this]
          simp
        · rfl
      have F1 : ((D₀.adj v0).map fun e => if e.tgt ≠ v1 then (if x e.tgt = true then d1.phase.u ρ else 1) *
          ((D.adj v1).map fun e' => if e'.tgt ≠ v0 then sg (x e.tgt) (x e'.tgt) else 1).prod else 1).prod =
          (if d1.phase.u ρ = -1 then signs v1 x (D.adj v0) else 1) *
            (if signs v0 x (D.adj v1) = -1 then signs v1 x (D.adj v0) else 1) := by
        rw [← prod_signs v1 x (D.adj v0) (d1.phase.u ρ) (by rcases hz1 with ⟨_, q⟩ | ⟨_, q⟩ <;> rw [q] <;> simp),
          ← prod_signs v1 x (D.adj v0) (signs v0 x (D.adj v1)) (signs_sq _ _ _), ← List.prod_map_mul]
        congr 1
        apply List.map_congr_left
        intro e _
        rw [inner]
        split_ifs <;> simp
      have F2 : ((D₁.adj v1).map fun e => if e.tgt ∈ V then (if x e.tgt = true then d0.phase.u ρ else 1) else 1).prod =
          if d0.phase.u ρ = -1 then signs v0 x (D.adj v1) else 1 := by
        rw [hadj1, ← prod_signs v0 x (D.adj v1) (d0.phase.u ρ) (by rcases hz0 with ⟨_, q⟩ | ⟨_, q⟩ <;> rw [q] <;> simp)]
        congr 1
        apply List.map_congr_left
        intro e he
        by_cases hx : e.tgt = v0
        · rw [hx, if_neg hnV0, if_neg (not_not.2 rfl)]
        · rw [if_pos (hV _ (nb1 e he).1 hx (nb1 e he).2), if_pos hx]
      rw [F1, F2]
      have hA := signs_sq v1 x (D.adj v0)
      have hB := signs_sq v0 x (D.adj v1)
      rw [show sg true false = 1 by simp [sg], show sg true true = -1 by simp [sg]]
      generalize signs v1 x (D.adj v0) = A at *
      generalize signs v0 x (D.adj v1) = B at *
      have n1 : ¬ (1 : ℂ) = -1 := by norm_num
      rcases hz0 with ⟨z0, q0⟩ | ⟨z0, q0⟩ <;> rcases hz1 with ⟨z1, q1⟩ | ⟨z1, q1⟩ <;> rw [q0, q1] <;>
        rcases hA with rfl | rfl <;> rcases hB with rfl | rfl <;> simp [z0, z1, n1] <;> norm_num
  · refine ⟨?_, s.size⟩
    rw [without_verts, without_verts, s.verts]
    rfl

end Diagram

end MQT.ZX
