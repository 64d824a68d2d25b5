/-
The rewrite rules preserve the linear map: identity removal, spider fusion, local complementation, Pauli pivot.
-/
import Verif.ZX.Step

set_option autoImplicit false

noncomputable section

open Classical

open Function (update)

namespace MQT.ZX

open Diagram

namespace Diagram

theorem Same.refl (D : Diagram) : D.Same D := ⟨rfl, rfl, 1, one_pos, fun ρ b => by simp⟩

theorem Same.trans {D₁ D₂ D₃ : Diagram} (h : D₁.Same D₂) (h' : D₂.Same D₃) : D₁.Same D₃ := by
  obtain ⟨i, o, k, hk, hv⟩ := h
  obtain ⟨i', o', k', hk', hv'⟩ := h'
  refine ⟨i'.trans i, o'.trans o, k * k', mul_pos hk hk', fun ρ b => ?_⟩
  rw [hv, hv']
  push_cast
  ring

/-- The weights of the edges of `v` for bit `p` of `v`. -/
def legs (D : Diagram) (v : ℕ) (p : Bool) (x : ℕ → Bool) : ℂ :=
  ((D.adj v).map fun e => ew e.type ((graph D).ty v) ((graph D).ty e.tgt) p (x e.tgt)).prod

theorem vf_inner (ρ : ℕ → ℝ) {D : Diagram} {v : ℕ} {d : VData} (hd : D.vert v = some d) (hb : d.type ≠ .boundary)
    (x : ℕ → Bool) : (graph D).vf ρ x v = if x v = true then d.phase.u ρ else 1 := by
  unfold Graph.vf graph
  simp only
  rw [hd]
  simp [hb]

/-- Summing out a spider. -/
theorem sum_vertex (ρ : ℕ → ℝ) {D : Diagram} (h : D.Inv) {v : ℕ} {d : VData} (hd : D.vert v = some d)
    (hb : d.type ≠ .boundary) (x : ℕ → Bool) :
    (graph D).W ρ D.verts (update x v false) + (graph D).W ρ D.verts (update x v true) =
      (D.legs v false x + d.phase.u ρ * D.legs v true x) * (graph D).W ρ (D.verts.erase v) x := by
  have hv : v ∈ D.verts := h.mem_verts.2 ⟨d, hd⟩
  have one : ∀ p, (graph D).W ρ D.verts (update x v p) =
      (if p = true then d.phase.u ρ else 1) * D.legs v p x * (graph D).W ρ (D.verts.erase v) x := by
    intro p
    rw [Graph.W_erase ρ (graph_symm h) _ hv, vf_inner ρ hd hb, Function.update_self,
      prod_pf h (Finset.erase_subset _ _) _ ⟨d, hd⟩]
    congr 1
    · congr 1
      unfold legs
      congr 1
      apply List.map_congr_left
      intro e he
      obtain ⟨h1, h2⟩ := h.nb v ⟨d, hd⟩ e he
      rw [if_pos (Finset.mem_erase.2 ⟨h2, h.mem_verts.2 h1⟩), Function.update_self, Function.update_of_ne h2]
    · apply Graph.W_congr
      · intro _ _; rfl
      · intro _ _ _ _ _; rfl
      · intro w hw
        rw [Function.update_of_ne (Finset.mem_erase.1 hw).1]
  rw [one, one]
  simp
  ring

/-- A rule that changes phases and edges, and then removes a spider. -/
theorem same_of_step {D D₁ : Diagram} (h : D.Inv) {v : ℕ} {d : VData} (hd : D.vert v = some d)
    (hb : d.type ≠ .boundary) {P : ℕ → ℕ → Prop} {F : (ℕ → ℝ) → (ℕ → Bool) → ℂ}
    (s : Step (D.verts.erase v) D D₁ P F) (gp : Phase) (k : ℝ) (hk : 0 < k) (g : (ℕ → ℝ) → ℂ)
    (hg : ∀ ρ, gp.u ρ = D.globalPhase.u ρ * g ρ)
    (hsum : ∀ ρ x, D.legs v false x + d.phase.u ρ * D.legs v true x = k * g ρ * F ρ x) :
    D.Same (({ D₁ with globalPhase := gp } : Diagram).without v) := by
  refine ⟨s.inputs, s.outputs, k, hk, fun ρ b => ?_⟩
  have hv : v ∈ D.inner := (mem_inner h).2 (by rw [ty_of_vert hd]; exact hb)
  have hv1 : D₁.Alive v := (s.alive v).2 ⟨d, hd⟩
  have e1 : (({ D₁ with globalPhase := gp } : Diagram).without v).verts = D.verts.erase v := by
    rw [without_verts]
    show D₁.verts.erase v = _
    rw [s.verts]
  have e2 : (({ D₁ with globalPhase := gp } : Diagram).without v).inner = D.inner.erase v := by
    have : (({ D₁ with globalPhase := gp } : Diagram).without v).inner = (D₁.without v).inner := rfl
    rw [this, without_inner s.inv hv1, s.inner]
  have e3 : ∀ x, (graph (({ D₁ with globalPhase := gp } : Diagram).without v)).W ρ (D.verts.erase v) x =
      (graph D).W ρ (D.verts.erase v) x * F ρ x := by
    intro x
    rw [W_without ρ _ v (Finset.notMem_erase v _), ← s.W]
    rfl
  unfold val
  rw [e1, e2]
  have hL : D.inner = insert v (D.inner.erase v) := (Finset.insert_erase hv).symm
  conv_lhs => rw [hL]
  rw [sumOver_insert (Finset.notMem_erase v _),
    sumOver_congr (g := fun x => ((k : ℂ) * g ρ) * (graph (({ D₁ with globalPhase := gp } : Diagram).without v)).W ρ (D.verts.erase v) x),
    sumOver_mul]
  · show _ = _ * (gp.u ρ * _)
    rw [hg]
    ring
  · intro x
    rw [e3, sum_vertex ρ h hd hb, hsum]
    ring

theorem total_without (D : Diagram) (v a b : ℕ) :
    (graph (D.without v)).total a b = if a = v ∨ b = v then 0 else (graph D).total a b := by
  rw [graph_without]
  unfold Graph.total
  simp only
  split_ifs <;> rfl

theorem pos_without {D : Diagram} {v a b : ℕ} (h : 0 < (graph (D.without v)).total a b) :
    (a ≠ v ∧ b ≠ v) ∧ 0 < (graph D).total a b := by
  rw [total_without] at h
  split_ifs at h with hc
  · omega
  · exact ⟨by tauto, h⟩

theorem total_pos {D : Diagram} {u v : ℕ} (h : 0 < (graph D).total u v) : D.Alive u ∧ D.Alive v := by
  by_contra hc
  unfold Graph.total graph at h
  simp only at h
  rw [if_neg hc, if_neg hc] at h
  omega

theorem total_of_mem {D : Diagram} (h : D.Inv) {v : ℕ} (hv : D.Alive v) {e : Edge} (he : e ∈ D.adj v) :
    0 < (graph D).total v e.tgt := by
  rw [graph_total hv (h.nb v hv e he).1]
  unfold conn
  rw [List.countP_pos_iff]
  exact ⟨e, he, by simp⟩

theorem mem_of_total {D : Diagram} {v w : ℕ} (h : 0 < (graph D).total v w) : ∃ e ∈ D.adj v, e.tgt = w := by
  obtain ⟨hv, hw⟩ := total_pos h
  rw [graph_total hv hw] at h
  unfold conn at h
  rw [List.countP_pos_iff] at h
  simpa using h

/-- Distinct edges have distinct ends. -/
theorem Simple.distinct {D : Diagram} (hs : D.Simple) (h : D.Inv) {v : ℕ} (hv : D.Alive v) {l₁ l₂ : List Edge} {e : Edge}
    (hl : D.adj v = l₁ ++ e :: l₂) : (∀ e' ∈ l₁, e'.tgt ≠ e.tgt) ∧ ∀ e' ∈ l₂, e'.tgt ≠ e.tgt := by
  have he : e ∈ D.adj v := by rw [hl]; simp
  have := hs v e.tgt
  rw [graph_total hv (h.nb v hv e he).1] at this
  unfold conn at this
  rw [hl, List.countP_append, List.countP_cons] at this
  simp only [decide_true, if_true] at this
  have z1 : l₁.countP (fun e' => e'.tgt = e.tgt) = 0 := by omega
  have z2 : l₂.countP (fun e' => e'.tgt = e.tgt) = 0 := by omega
  rw [List.countP_eq_zero] at z1 z2
  exact ⟨fun e' h => by simpa using z1 e' h, fun e' h => by simpa using z2 e' h⟩

theorem Step.total {V : Finset ℕ} {D D' : Diagram} {P : ℕ → ℕ → Prop} {F : (ℕ → ℝ) → (ℕ → Bool) → ℂ}
    (s : Step V D D' P F) {a b : ℕ} (h : ¬ P a b) : (graph D').total a b = (graph D).total a b := by
  unfold Graph.total
  rw [s.m a b h]

/-! ### Identity removal -/

theorem removeId_sound {D : Diagram} (h : D.Good) {v : ℕ} (hc : D.checkIdSimp v) :
    ∃ D', D.removeId v = some D' ∧ D'.Good ∧ D.Same D' ∧ D'.verts = D.verts.erase v ∧ D'.size = D.size := by
  obtain ⟨hlen, ⟨p, hp, hz⟩, t, ht, htb⟩ := hc
  obtain ⟨⟨d, hd⟩, hty⟩ := (type_eq_iff h.inv).1 ht
  have hv : D.Alive v := ⟨d, hd⟩
  have hdp : d.phase = p := by
    rw [(type_of_alive h.inv hd).2] at hp
    simpa using hp
  have hdt : d.type = t := by rw [← hty, ty_of_vert hd]
  obtain ⟨e0, e1, hl⟩ : ∃ e0 e1, D.adj v = [e0, e1] := by
    match hx : D.adj v with
    | [] => rw [hx] at hlen; simp at hlen
    | [_] => rw [hx] at hlen; simp at hlen
    | [a, b] => exact ⟨a, b, rfl⟩
    | _ :: _ :: _ :: _ => rw [hx] at hlen; simp at hlen
  have m0 : e0 ∈ D.adj v := by rw [hl]; simp
  have m1 : e1 ∈ D.adj v := by rw [hl]; simp
  obtain ⟨a0, n0⟩ := h.inv.nb v hv e0 m0
  obtain ⟨a1, n1⟩ := h.inv.nb v hv e1 m1
  have hne : e0.tgt ≠ e1.tgt := by
    have := (h.simple.distinct h.inv hv (l₁ := [e0]) (e := e1) (l₂ := []) (by rw [hl]; rfl)).1 e0 (by simp)
    exact this
  have t0 := total_of_mem h.inv hv m0
  have t1 := total_of_mem h.inv hv m1
  rw [graph_total_symm h.inv] at t0 t1
  have hV : ∀ w, D.Alive w → w ≠ v → w ∈ D.verts.erase v := fun w h1 h2 => Finset.mem_erase.2 ⟨h2, h.inv.mem_verts.2 h1⟩
  have hb : ((graph D).ty e0.tgt ≠ .boundary ∧ (graph D).ty e1.tgt ≠ .boundary) ∨
      (e0.tgt ≠ e1.tgt ∧ (graph D).total e0.tgt e1.tgt = 0) := by
    by_cases b0 : (graph D).ty e0.tgt = .boundary
    · refine .inr ⟨hne, ?_⟩
      by_contra hx
      exact n1 (h.bd _ _ _ b0 t0 (Nat.pos_of_ne_zero hx)).symm
    · by_cases b1 : (graph D).ty e1.tgt = .boundary
      · refine .inr ⟨hne, ?_⟩
        by_contra hx
        rw [graph_total_symm h.inv] at hx
        exact n0 (h.bd _ _ _ b1 t1 (Nat.pos_of_ne_zero hx)).symm
      · exact .inl ⟨b0, b1⟩
  obtain ⟨D₁, h1, s⟩ := epa_step h.inv h.simple (hV _ a0 n0) (hV _ a1 n1) a0 a1
    (if e0.type ≠ e1.type then .hadamard else .simple) hb
  have hv1 : D₁.Alive v := (s.alive v).2 hv
  refine ⟨D₁.without v, ?_, ⟨without_inv s.inv hv1, without_simple (s.simple h.simple) v, ?_, without_range (s.range h.range) v⟩, ?_, ?_⟩
  · unfold removeId
    rw [if_pos (h.inv.lt hv), hl]
    simp only [Option.bind_eq_bind]
    rw [h1, Option.bind_some, removeVertex_eq s.inv hv1]
  · intro b u w hbt hu hw
    obtain ⟨q1, hu⟩ := pos_without hu
    obtain ⟨q2, hw⟩ := pos_without hw
    rw [without_ty, if_neg q1.1, s.ty] at hbt
    have key : ∀ z, z ≠ v → 0 < (graph D₁).total b z → (Pair e0.tgt e1.tgt b z) ∨ 0 < (graph D).total b z := by
      intro z _ hzz
      by_cases hP : Pair e0.tgt e1.tgt b z
      · exact .inl hP
      · rw [s.total hP] at hzz
        exact .inr hzz
    have old : ∀ z, z ≠ v → 0 < (graph D).total b z → b ≠ e0.tgt ∧ b ≠ e1.tgt := by
      intro z hz hzz
      constructor
      · rintro rfl
        exact hz (h.bd _ _ _ hbt hzz t0)
      · rintro rfl
        exact hz (h.bd _ _ _ hbt hzz t1)
    rcases key u q1.2 hu with k1 | k1 <;> rcases key w q2.2 hw with k2 | k2
    · rcases k1 with ⟨x1, x2⟩ | ⟨x1, x2⟩ <;> rcases k2 with ⟨y1, y2⟩ | ⟨y1, y2⟩
      · rw [x2, y2]
      · exact absurd (x1.symm.trans y1) hne
      · exact absurd (y1.symm.trans x1) hne
      · rw [x2, y2]
    · have := old w q2.2 k2
      rcases k1 with ⟨x1, x2⟩ | ⟨x1, x2⟩
      · exact absurd x1 this.1
      · exact absurd x1 this.2
    · have := old u q1.2 k1
      rcases k2 with ⟨x1, x2⟩ | ⟨x1, x2⟩
      · exact absurd x1 this.1
      · exact absurd x1 this.2
    · exact h.bd _ _ _ hbt k1 k2
  · have := same_of_step h.inv hd (by rw [hdt]; exact htb) s D₁.globalPhase
      (if odd e0.type d.type ((graph D).ty e0.tgt) && odd e1.type d.type ((graph D).ty e1.tgt) then 2 else 1)
      (by split_ifs <;> norm_num) (fun _ => 1) (by intro ρ; rw [s.gp, mul_one]) ?_
    · exact this
    · intro ρ x
      unfold legs
      rw [hl, hdp, Phase.u_of_isZero ρ hz, ty_of_vert hd]
      simp only [List.map_cons, List.map_nil, List.prod_cons, List.prod_nil, mul_one, one_mul]
      rw [ew_sum]
      split_ifs <;> push_cast <;> rfl
  · exact ⟨by rw [without_verts, s.verts], s.size⟩

/-! ### Spider fusion -/

theorem phase_eq {D : Diagram} {v : ℕ} {p : Phase} (hp : D.phase v = some p) :
    ∃ d, D.vert v = some d ∧ d.phase = p := by
  unfold phase at hp
  split_ifs at hp with hlt
  cases hv : D.vert v with
  | none => rw [hv] at hp; simp at hp
  | some d => rw [hv] at hp; exact ⟨d, rfl, by simpa using hp⟩

/-- The only edge. -/
theorem edge_type {D : Diagram} (h : D.Good) {u v : ℕ} (hu : D.Alive u) {t : EType}
    (hf : (findEdge (D.adj u) v).map Edge.type = some t) :
    D.Alive v ∧ u ≠ v ∧ 0 < (graph D).total u v ∧ (∀ e ∈ D.adj v, e.tgt = u → e.type = t) ∧
      (∀ e ∈ D.adj u, e.tgt = v → e.type = t) ∧ (∃ e ∈ D.adj v, e.tgt = u) ∧ ∃ e ∈ D.adj u, e.tgt = v := by
  cases he : findEdge (D.adj u) v with
  | none => rw [he] at hf; simp at hf
  | some e =>
    rw [he] at hf
    simp only [Option.map_some, Option.some.injEq] at hf
    obtain ⟨m, ht⟩ := findEdge_some he
    obtain ⟨hv, hne⟩ := h.inv.nb u hu e m
    have hpos := total_of_mem h.inv hu m
    rw [ht] at hv hne hpos
    have hc : D.conn u v = 1 := by
      have := h.simple u v
      rw [graph_total hu hv] at this hpos
      omega
    have hm := mult_of_find he hc
    have cnt : ∀ a b : ℕ, (∀ s, D.mult a b s = if s = e.type then 1 else 0) → ∀ e' ∈ D.adj a, e'.tgt = b → e'.type = t := by
      intro a b hab e' m' ht'
      by_contra hx
      have h0 := hab e'.type
      rw [if_neg (by rw [hf]; exact hx)] at h0
      unfold mult at h0
      rw [List.count_eq_zero] at h0
      apply h0
      rw [← ht']
      exact m'
    refine ⟨hv, hne.symm, hpos, cnt v u fun s => by rw [← h.inv.sym u v s hu hv]; exact hm s, cnt u v hm, ?_, e, m, ht⟩
    exact mem_of_total (by rw [graph_total_symm h.inv]; exact hpos)

theorem fuseSpiders_sound {D : Diagram} (h : D.Good) {v0 v1 : ℕ} (hv0 : D.Alive v0) (hc : D.checkSpiderFusion v0 v1) :
    ∃ D', D.fuseSpiders v0 v1 = some D' ∧ D'.Good ∧ D.Same D' ∧ D'.verts = D.verts.erase v1 ∧ D'.size = D.size := by
  obtain ⟨hne, hty, hf, hnb⟩ := hc
  obtain ⟨hv1, _, hpos, htyp, _, ⟨ee, mee, tee⟩, _⟩ := edge_type h hv0 hf
  obtain ⟨d0, hd0⟩ := hv0
  obtain ⟨d1, hd1⟩ := hv1
  have hv0 : D.Alive v0 := ⟨d0, hd0⟩
  have hv1 : D.Alive v1 := ⟨d1, hd1⟩
  have ty0 := ty_of_vert hd0
  have ty1 := ty_of_vert hd1
  rw [(type_of_alive h.inv hd0).1, (type_of_alive h.inv hd1).1, Option.some.injEq] at hty
  rw [(type_of_alive h.inv hd0).1, ne_eq, Option.some.injEq] at hnb
  have hn0 : (graph D).ty v0 ≠ .boundary := by rw [ty0]; exact hnb
  have hV : ∀ w, D.Alive w → w ≠ v1 → w ∈ D.verts.erase v1 := fun w h1 h2 => Finset.mem_erase.2 ⟨h2, h.inv.mem_verts.2 h1⟩
  obtain ⟨D₁, a1, s1⟩ := addPhase_step h.inv (D.verts.erase v1) hn0 (h.range v1 d1 hd1) (fun _ _ => False)
  have hadj : D₁.adj v1 = D.adj v1 := s1.adj v1 fun z => ⟨id, id⟩
  have loop := forEdges_step (D₀ := D₁) (V := D.verts.erase v1) (v := v1) (l := D₁.adj v1)
    (body := fun e D => if v0 ≠ e.tgt then D.addEdgeParallelAware v0 e.tgt e.type else some D) s1.inv
    (fun e a b => v0 ≠ e.tgt ∧ Pair v0 e.tgt a b)
    (fun e _ x => if v0 ≠ e.tgt then ew e.type ((graph D).ty v0) ((graph D).ty e.tgt) (x v0) (x e.tgt) else 1)
    (by
      intro e he z
      rw [hadj] at he
      obtain ⟨_, hx⟩ := h.inv.nb v1 hv1 e he
      constructor
      · rintro ⟨_, ⟨q1, _⟩ | ⟨q1, _⟩⟩
        · exact hne q1.symm
        · exact hx q1.symm
      · rintro ⟨_, ⟨_, q1⟩ | ⟨_, q1⟩⟩
        · exact hx q1.symm
        · exact hne q1.symm)
    (by
      intro l₁ e l₂ hl D₂ s2
      rw [hadj] at hl
      have he : e ∈ D.adj v1 := by rw [hl]; simp
      obtain ⟨hea, hen⟩ := h.inv.nb v1 hv1 e he
      by_cases hx : v0 = e.tgt
      · refine ⟨D₂, by simp [hx], (Step.refl s2.inv).mono (fun _ _ h => h) ?_⟩
        intro ρ x
        rw [if_neg (not_not.2 hx)]
      · have s02 := s1.trans s2
        obtain ⟨D₃, h3, s3⟩ := epa_step s2.inv (s02.simple h.simple) (hV v0 hv0 hne) (hV _ hea hen) ((s02.alive _).2 hv0)
          ((s02.alive _).2 hea) e.type (by
            by_cases hbt : (graph D).ty e.tgt = .boundary
            · refine .inr ⟨hx, ?_⟩
              rw [s02.total]
              · by_contra hz
                rw [graph_total_symm h.inv] at hz
                have := total_of_mem h.inv hv1 he
                rw [graph_total_symm h.inv] at this
                exact hne (h.bd _ _ _ hbt (Nat.pos_of_ne_zero hz) this)
              · rintro (hF | ⟨e', m', _, hP⟩)
                · exact hF
                · have := (h.simple.distinct h.inv hv1 hl).1 e' m'
                  rcases hP with ⟨_, q⟩ | ⟨q, q'⟩
                  · exact this q.symm
                  · exact hx q'.symm
            · exact .inl ⟨by rw [s02.ty]; exact hn0, by rw [s02.ty]; exact hbt⟩)
        refine ⟨D₃, by rw [if_pos hx]; exact h3, s3.mono (fun a b hP => ⟨hx, hP⟩) ?_⟩
        intro ρ x
        rw [if_pos hx, s02.ty, s02.ty])
  obtain ⟨D₂, h2, s2⟩ := loop
  have s := s1.trans s2
  have hv1' : D₂.Alive v1 := (s.alive v1).2 hv1
  refine ⟨D₂.without v1, ?_, ⟨without_inv s.inv hv1', without_simple (s.simple h.simple) v1, ?_, without_range (s.range h.range) v1⟩, ?_, ?_⟩
  · unfold fuseSpiders
    rw [(type_of_alive h.inv hd1).2]
    simp only [Option.bind_eq_bind, Option.bind_some]
    rw [a1, Option.bind_some, h2, Option.bind_some, removeVertex_eq s.inv hv1']
  · intro b u w hbt hu hw
    obtain ⟨q1, hu⟩ := pos_without hu
    obtain ⟨q2, hw⟩ := pos_without hw
    rw [without_ty, if_neg q1.1, s.ty] at hbt
    have hb0 : b ≠ v0 := by rintro rfl; exact hn0 hbt
    have key : ∀ z, z ≠ v1 → 0 < (graph D₂).total b z →
        (z = v0 ∧ 0 < (graph D).total b v1) ∨ 0 < (graph D).total b z := by
      intro z _ hzz
      by_cases hP : ∃ e ∈ D₁.adj v1, v0 ≠ e.tgt ∧ Pair v0 e.tgt b z
      · obtain ⟨e, me, _, hP⟩ := hP
        rw [hadj] at me
        rcases hP with ⟨q, _⟩ | ⟨q, q'⟩
        · exact absurd q hb0
        · refine .inl ⟨q', ?_⟩
          rw [graph_total_symm h.inv, q]
          exact total_of_mem h.inv hv1 me
      · rw [s.total (by rintro (hF | hF); exacts [hF, hP hF])] at hzz
        exact .inr hzz
    rcases key u q1.2 hu with k1 | k1 <;> rcases key w q2.2 hw with k2 | k2
    · rw [k1.1, k2.1]
    · exact absurd (h.bd _ _ _ hbt k2 k1.2) q2.2
    · exact absurd (h.bd _ _ _ hbt k1 k2.2) q1.2
    · exact h.bd _ _ _ hbt k1 k2
  · have := same_of_step h.inv hd1 (by rw [← hty]; exact hnb) s D₂.globalPhase 1 one_pos (fun _ => 1)
      (by intro ρ; rw [s.gp, mul_one]) ?_
    · exact this
    · intro ρ x
      rw [hadj, if_pos (hV v0 hv0 hne), Complex.ofReal_one, one_mul, one_mul]
      have same : D.legs v1 (x v0) x =
          ((D.adj v1).map fun e => if v0 ≠ e.tgt then ew e.type ((graph D).ty v0) ((graph D).ty e.tgt) (x v0) (x e.tgt) else 1).prod := by
        unfold legs
        congr 1
        apply List.map_congr_left
        intro e he
        by_cases hx : v0 = e.tgt
        · rw [if_neg (not_not.2 hx), htyp e he hx.symm, ← hx, ty0, ty1, hty]
          unfold ew odd
          simp
        · rw [if_pos hx, ty0, ty1, hty]
      have zero : D.legs v1 (!x v0) x = 0 := by
        unfold legs
        apply List.prod_eq_zero
        rw [List.mem_map]
        refine ⟨ee, mee, ?_⟩
        rw [htyp ee mee tee, tee, ty0, ty1, hty]
        unfold ew odd
        simp
      rw [← same]
      cases hx : x v0
      · rw [hx] at zero
        simp only [Bool.not_false] at zero
        rw [zero]; simp
      · rw [hx] at zero
        simp only [Bool.not_true] at zero
        rw [zero]; simp
  · exact ⟨by rw [without_verts, s.verts], s.size⟩

/-! ### Local complementation -/

/-- Pairs of spiders other than those in `X`. -/
def Inside (D : Diagram) (X : ℕ → Prop) (a b : ℕ) : Prop :=
  (¬ X a ∧ ¬ X b) ∧ (graph D).ty a ≠ .boundary ∧ (graph D).ty b ≠ .boundary

theorem Step.inside {V : Finset ℕ} {D D' : Diagram} {P : ℕ → ℕ → Prop} {F : (ℕ → ℝ) → (ℕ → Bool) → ℂ}
    (s : Step V D D' P F) (X : ℕ → Prop) (a b : ℕ) : Inside D' X a b ↔ Inside D X a b := by
  unfold Inside
  rw [s.ty, s.ty]

theorem Step.bd {V : Finset ℕ} {D D' : Diagram} {X : ℕ → Prop} {F : (ℕ → ℝ) → (ℕ → Bool) → ℂ}
    (s : Step V D D' (Inside D X) F) (h : D.Bd) : D'.Bd := by
  intro b u w hbt hu hw
  rw [s.ty] at hbt
  rw [s.total fun hP => hP.2.1 hbt] at hu hw
  exact h b u w hbt hu hw

theorem without_bd {D : Diagram} (h : D.Bd) (v : ℕ) : (D.without v).Bd := by
  intro b u w hbt hu hw
  obtain ⟨q1, hu⟩ := pos_without hu
  obtain ⟨q2, hw⟩ := pos_without hw
  rw [without_ty, if_neg q1.1] at hbt
  exact h b u w hbt hu hw

/-- The sign of a Hadamard edge between Z spiders. -/
def sg (p q : Bool) : ℂ := if p && q then -1 else 1

theorem ew_hzz (p q : Bool) : ew .hadamard .z .z p q = sg p q := by
  unfold ew odd sg
  simp

/-- The factor of `complementLoop`. -/
def compF (u : ℂ) (x : ℕ → Bool) : List Edge → ℂ
  | [] => 1
  | e :: r => (if x e.tgt = true then u else 1) * (r.map fun e' => sg (x e.tgt) (x e'.tgt)).prod * compF u x r

theorem complementLoop_step {V : Finset ℕ} {v : ℕ} {p : Phase} (hp : p.const.InRange) (l : List Edge) (D : Diagram)
    (h : D.Inv) (hs : D.Simple)
    (hl : ∀ e ∈ l, e.tgt ∈ V ∧ D.Alive e.tgt ∧ (graph D).ty e.tgt = .z ∧ e.tgt ≠ v) :
    ∃ D', complementLoop v p l D = some D' ∧
      Step V D D' (Inside D fun w => w = v) fun ρ x => compF (p.u ρ) x l := by
  induction l generalizing D with
  | nil => exact ⟨D, rfl, Step.refl h⟩
  | cons e r ih =>
    obtain ⟨eV, eA, eT, eN⟩ := hl e (by simp)
    have eB : (graph D).ty e.tgt ≠ .boundary := by rw [eT]; simp
    obtain ⟨D₁, h1, s1⟩ := addPhase_step h V eB hp (Inside D fun w => w = v)
    obtain ⟨D₂, h2, s2⟩ := forEdges_step (D₀ := D₁) (V := V) (v := v) (l := r)
      (body := fun e' D => D.addEdgeParallelAware e.tgt e'.tgt .hadamard) s1.inv (fun _ => Inside D fun w => w = v)
      (fun e' _ x => sg (x e.tgt) (x e'.tgt))
      (fun _ _ z => ⟨fun hP => hP.1.1 rfl, fun hP => hP.1.2 rfl⟩)
      (by
        intro l₁ e' l₂ hl' D₂ s2
        obtain ⟨eV', eA', eT', eN'⟩ := hl e' (by rw [hl']; simp)
        have s := s1.trans s2
        have eB' : (graph D).ty e'.tgt ≠ .boundary := by rw [eT']; simp
        obtain ⟨D₃, h3, s3⟩ := epa_step s2.inv (s.simple hs) eV eV' ((s.alive _).2 eA) ((s.alive _).2 eA') .hadamard
          (.inl ⟨by rw [s.ty]; exact eB, by rw [s.ty]; exact eB'⟩)
        refine ⟨D₃, h3, s3.mono ?_ ?_⟩
        · rintro a b (⟨rfl, rfl⟩ | ⟨rfl, rfl⟩)
          · exact ⟨⟨eN, eN'⟩, eB, eB'⟩
          · exact ⟨⟨eN', eN⟩, eB', eB⟩
        · intro ρ x
          rw [s.ty, s.ty, eT, eT', ew_hzz])
    have s := s1.trans s2
    have hadj : D₂.adj v = D.adj v := s.adj v fun z => by
      refine ⟨?_, ?_⟩
      · rintro (hP | ⟨_, _, hP⟩) <;> exact hP.1.1 rfl
      · rintro (hP | ⟨_, _, hP⟩) <;> exact hP.1.2 rfl
    obtain ⟨D₃, h3, s3⟩ := ih D₂ s.inv (s.simple hs) fun e' he' => by
      obtain ⟨a, b, c, d⟩ := hl e' (by simp [he'])
      exact ⟨a, (s.alive _).2 b, by rw [s.ty]; exact c, d⟩
    refine ⟨D₃, ?_, (s.trans s3).mono ?_ ?_⟩
    · unfold complementLoop
      rw [h1]
      simp only [Option.bind_eq_bind, Option.bind_some]
      rw [h2]
      simp only [Option.bind_some]
      rw [if_pos hadj]
      exact h3
    · rintro a b ((hP | ⟨_, _, hP⟩) | hP)
      · exact hP
      · exact hP
      · exact (s.inside _ a b).1 hP
    · intro ρ x
      rw [if_pos eV]
      rfl

theorem sg_true_sq (x : ℕ → Bool) (l : List Edge) :
    (l.map fun e => sg true (x e.tgt)).prod = 1 ∨ (l.map fun e => sg true (x e.tgt)).prod = -1 := by
  induction l with
  | nil => simp
  | cons e r ih =>
    rw [List.map_cons, List.prod_cons]
    unfold sg at ih ⊢
    cases x e.tgt <;> rcases ih with h | h <;> simp at h ⊢ <;> rw [h] <;> simp

theorem sg_prod (p : Bool) (x : ℕ → Bool) (l : List Edge) :
    (l.map fun e => sg p (x e.tgt)).prod = if p = true then (l.map fun e => sg true (x e.tgt)).prod else 1 := by
  cases p
  · rw [if_neg (by simp)]
    have : ∀ e : Edge, sg false (x e.tgt) = 1 := fun e => by simp [sg]
    simp only [this]
    simp
  · rfl

theorem comp_sum (s : ℂ) (hs : s * s = -1) (x : ℕ → Bool) (l : List Edge) :
    1 + s * (l.map fun e => sg true (x e.tgt)).prod = (1 + s) * compF (-s) x l := by
  induction l with
  | nil => simp [compF]
  | cons e r ih =>
    unfold compF
    rw [sg_prod, List.map_cons, List.prod_cons]
    cases hx : x e.tgt
    · simp [sg] at ih ⊢
      exact ih
    · simp only [if_true]
      rw [show sg true true = -1 by simp [sg]]
      have h2 : (r.map fun e => sg true (x e.tgt)).prod * (r.map fun e => sg true (x e.tgt)).prod = 1 := by
        rcases sg_true_sq x r with h | h <;> rw [h] <;> norm_num
      generalize (r.map fun e => sg true (x e.tgt)).prod = π' at *
      linear_combination (-s) * π' * ih + π' * π' * hs - h2

theorem one_add_I : (1 : ℂ) + Complex.I = (√2 : ℝ) * Complex.exp ((1 / 4 * Real.pi : ℝ) * Complex.I) := by
  have h2 : √2 * √2 = (2 : ℝ) := Real.mul_self_sqrt (by norm_num)
  rw [Complex.exp_mul_I, ← Complex.ofReal_cos, ← Complex.ofReal_sin, show (1 / 4 * Real.pi : ℝ) = Real.pi / 4 by ring,
    Real.cos_pi_div_four, Real.sin_pi_div_four]
  apply Complex.ext
  · simp; linarith
  · simp; linarith

theorem one_sub_I : (1 : ℂ) + -Complex.I = (√2 : ℝ) * Complex.exp ((-(1 / 4) * Real.pi : ℝ) * Complex.I) := by
  have h2 : √2 * √2 = (2 : ℝ) := Real.mul_self_sqrt (by norm_num)
  rw [Complex.exp_mul_I, ← Complex.ofReal_cos, ← Complex.ofReal_sin, show (-(1 / 4) * Real.pi : ℝ) = -(Real.pi / 4) by ring,
    Real.cos_neg, Real.sin_neg, Real.cos_pi_div_four, Real.sin_pi_div_four]
  apply Complex.ext
  · simp; linarith
  · simp; linarith

theorem legs_hzz {D : Diagram} {v : ℕ} (hv : (graph D).ty v = .z)
    (hl : ∀ e ∈ D.adj v, e.type = .hadamard ∧ (graph D).ty e.tgt = .z) (p : Bool) (x : ℕ → Bool) :
    D.legs v p x = if p = true then ((D.adj v).map fun e => sg true (x e.tgt)).prod else 1 := by
  rw [← sg_prod]
  unfold legs
  congr 1
  apply List.map_congr_left
  intro e he
  obtain ⟨h1, h2⟩ := hl e he
  rw [h1, h2, hv, ew_hzz]

theorem localComp_sound {D : Diagram} (h : D.Good) {v : ℕ} (hc : D.checkLocalComp v) :
    ∃ D', D.localComp v = some D' ∧ D'.Good ∧ D.Same D' ∧ D'.verts = D.verts.erase v ∧ D'.size = D.size := by
  obtain ⟨ht, ⟨p, hp, hcl⟩, hl⟩ := hc
  obtain ⟨d, hd, rfl⟩ := phase_eq hp
  have hv : D.Alive v := ⟨d, hd⟩
  have hty := ((type_eq_iff h.inv).1 ht).2
  have hrange := h.range v d hd
  have hl' : ∀ e ∈ D.adj v, e.type = .hadamard ∧ (graph D).ty e.tgt = .z := fun e he =>
    ⟨(hl e he).1, ((type_eq_iff h.inv).1 (hl e he).2).2⟩
  obtain ⟨D₁, h1, s⟩ := complementLoop_step (V := D.verts.erase v) (v := v) (Phase.neg_inRange hrange) (D.adj v) D h.inv h.simple
    (fun e he => ⟨Finset.mem_erase.2 ⟨(h.inv.nb v hv e he).2, h.inv.mem_verts.2 (h.inv.nb v hv e he).1⟩,
      (h.inv.nb v hv e he).1, (hl' e he).2, (h.inv.nb v hv e he).2⟩)
  have hv1 : D₁.Alive v := (s.alive v).2 hv
  -- the phase of `v` itself is not changed
  have hph : ∀ (l : List Edge) (D D' : Diagram), (∀ e ∈ l, e.tgt ≠ v) → complementLoop v d.phase.neg l D = some D' →
      D'.vert v = D.vert v := by
    have epa : ∀ (D D' : Diagram) (a b : ℕ) (t : EType), a ≠ v → D.addEdgeParallelAware a b t = some D' → D'.vert v = D.vert v := by
      intro D D' a b t ha hD
      have ap : ∀ (D D' : Diagram) (q : Phase), D.addPhase a q = some D' → D'.vert v = D.vert v := by
        intro D D' q hD
        unfold addPhase at hD
        split_ifs at hD
        split at hD
        · simp only [Option.some.injEq] at hD
          subst hD
          exact Function.update_of_ne ha.symm _ _
        · simp only [Option.some.injEq] at hD
          subst hD; rfl
      have tp : ∀ (D D' : Diagram) (a b : ℕ), D.togglePtr a b = some D' → D'.vert = D.vert := by
        intro D D' a b hD
        unfold togglePtr at hD
        split at hD
        · simp only [Option.some.injEq] at hD
          subst hD; rfl
        · simp at hD
      have eb : ∀ (D D' : Diagram) (a b : ℕ), D.eraseBoth a b = some D' → D'.vert = D.vert := by
        intro D D' a b hD
        unfold eraseBoth removeHalfEdge at hD
        split_ifs at hD
        · simp only [Option.bind_eq_bind, Option.bind_some, Option.some.injEq] at hD
          subst hD; rfl
        · simp at hD
      have ae : ∀ (D D' : Diagram) (a b : ℕ) (t : EType), D.addEdge a b t = some D' → D'.vert = D.vert := by
        intro D D' a b t hD
        unfold addEdge at hD
        split_ifs at hD
        simp only [Option.some.injEq] at hD
        subst hD; rfl
      unfold addEdgeParallelAware at hD
      split_ifs at hD
      · simp only [Option.bind_eq_bind, Option.bind_eq_some_iff] at hD
        obtain ⟨tu, _, hD⟩ := hD
        split_ifs at hD
        · exact ap _ _ _ hD
        · simp only [Option.some.injEq] at hD; subst hD; rfl
      · split at hD
        · rw [ae _ _ _ _ _ hD]
        · simp only [Option.bind_eq_bind, Option.bind_eq_some_iff] at hD
          obtain ⟨tu, _, hD⟩ := hD
          split_ifs at hD
          · simp only [Option.some.injEq] at hD; subst hD; rfl
          · simp only [Option.bind_eq_some_iff] at hD
            obtain ⟨tv, _, hD⟩ := hD
            split_ifs at hD
            · simp only [Option.some.injEq] at hD; subst hD; rfl
            all_goals
              split at hD
              all_goals first
                | exact ap _ _ _ hD
                | (rw [eb _ _ _ _ hD])
                | (simp only [Option.some.injEq] at hD; subst hD; rfl)
                | (simp only [Option.bind_eq_some_iff] at hD
                   obtain ⟨D1, hD1, hD⟩ := hD
                   rw [ap _ _ _ hD, tp _ _ _ _ hD1]
                   rfl)
    have fe : ∀ (a : ℕ) (r : List Edge) (D D' : Diagram), a ≠ v →
        forEdges v (fun e' D => D.addEdgeParallelAware a e'.tgt .hadamard) r D = some D' → D'.vert v = D.vert v := by
      intro a r
      induction r with
      | nil => intro D D' _ hD; simp only [forEdges, Option.some.injEq] at hD; subst hD; rfl
      | cons e r ih =>
        intro D D' ha hD
        simp only [forEdges, Option.bind_eq_bind, Option.bind_eq_some_iff] at hD
        obtain ⟨D1, hD1, hD⟩ := hD
        split_ifs at hD
        rw [ih _ _ ha hD, epa _ _ _ _ _ ha hD1]
    intro l
    induction l with
    | nil => intro D D' _ hD; simp only [complementLoop, Option.some.injEq] at hD; subst hD; rfl
    | cons e r ih =>
      intro D D' ha hD
      simp only [complementLoop, Option.bind_eq_bind, Option.bind_eq_some_iff] at hD
      obtain ⟨D1, hD1, D2, hD2, hD⟩ := hD
      split_ifs at hD
      rw [ih _ _ (fun e' he' => ha e' (by simp [he'])) hD, fe _ _ _ _ (ha e (by simp)) hD2]
      unfold addPhase at hD1
      split_ifs at hD1
      split at hD1
      · simp only [Option.some.injEq] at hD1
        subst hD1
        exact Function.update_of_ne (ha e (by simp)).symm _ _
      · simp only [Option.some.injEq] at hD1
        subst hD1; rfl
  have hdv : D₁.vert v = some d := by
    rw [hph _ _ _ (fun e he => (h.inv.nb v hv e he).2) h1, hd]
  have hb : d.type ≠ .boundary := by rw [← ty_of_vert hd, hty]; simp
  have hgp : ∀ g : Phase, (D₁.addGlobalPhase g).Inv := fun g =>
    ⟨s.inv.out, s.inv.del, s.inv.nodup, s.inv.nv, s.inv.ne, s.inv.sym, s.inv.nb⟩
  refine ⟨(D₁.addGlobalPhase (Phase.ofRat (d.phase.const.frac.num / 4))).without v, ?_, ⟨without_inv (hgp _) hv1, without_simple (D := D₁.addGlobalPhase _) (s.simple h.simple) v,
    without_bd (D := D₁.addGlobalPhase _) (s.bd h.bd) v, without_range (D := D₁.addGlobalPhase _) (s.range h.range) v⟩, ?_, ?_⟩
  · unfold localComp
    rw [hp]
    simp only [Option.bind_eq_bind, Option.bind_some]
    rw [h1, Option.bind_some, (type_of_alive s.inv hdv).2, Option.bind_some]
    exact removeVertex_eq (hgp _) hv1
  · refine same_of_step h.inv hd hb s _ (√2) (by positivity) (fun ρ => (Phase.ofRat (d.phase.const.frac.num / 4)).u ρ) ?_ ?_
    · intro ρ
      rw [Phase.u_add, s.gp]
    · intro ρ x
      rw [legs_hzz hty hl', legs_hzz hty hl', Phase.u_neg]
      simp only [Bool.false_eq_true, if_false, if_true]
      rcases Phase.clifford_cases hcl hrange with ⟨hn, hu⟩ | ⟨hn, hu⟩
      · rw [hu, hn, comp_sum _ (by rw [Complex.I_mul_I]), Complex.inv_I, one_add_I, Phase.u_ofRat]
        norm_num
      · rw [hu, hn, comp_sum _ (by rw [neg_mul_neg, Complex.I_mul_I]), one_sub_I, Phase.u_ofRat, inv_neg, Complex.inv_I]
        norm_num
  · refine ⟨?_, s.size⟩
    rw [without_verts]
    show D₁.verts.erase v = _
    rw [s.verts]

end Diagram

end MQT.ZX
