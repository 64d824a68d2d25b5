/-
Extracting gadgets and making vertices interior preserve the linear map; the pivots built on them.
-/
import Verif.ZX.PivotProof

set_option autoImplicit false

noncomputable section

open Classical

open Function (update)

namespace MQT.ZX

open Diagram

theorem Graph.total_setM (G : Graph) (u v : ℕ) (f : EType → ℕ) (a b : ℕ) :
    (G.setM u v f).total a b = if (a = u ∧ b = v) ∨ (a = v ∧ b = u) then f .simple + f .hadamard else G.total a b := by
  unfold total setM
  simp only
  split_ifs <;> rfl

theorem Graph.m_setM (G : Graph) (u v : ℕ) (f : EType → ℕ) (a b : ℕ) (t : EType) :
    (G.setM u v f).m a b t = if (a = u ∧ b = v) ∨ (a = v ∧ b = u) then f t else G.m a b t := by
  unfold setM
  simp only
  split_ifs <;> rfl

theorem Graph.m_of_total {G : Graph} {a b : ℕ} (h : G.total a b = 0) (t : EType) : G.m a b t = 0 := by
  unfold total at h
  cases t <;> omega

theorem Phase.zero_inRange : Phase.zero.const.InRange := by
  unfold Phase.zero PiRational.InRange
  norm_num

theorem Phase.isZero_zero : Phase.zero.isZero := ⟨rfl, by simp [Phase.zero, PiRational.isZero]⟩

theorem Phase.isPauli_zero : Phase.zero.isPauli := ⟨rfl, by simp [Phase.zero, PiRational.isInteger]⟩

namespace Diagram

theorem Same.symm {D₁ D₂ : Diagram} (h : D₁.Same D₂) : D₂.Same D₁ := by
  obtain ⟨i, o, k, hk, hv⟩ := h
  refine ⟨i.symm, o.symm, k⁻¹, inv_pos.2 hk, fun ρ b => ?_⟩
  rw [hv]
  have : (k : ℂ) ≠ 0 := by exact_mod_cast hk.ne'
  push_cast
  field_simp

theorem verts_of_vert {D D' : Diagram} (h : D.Inv) (h' : D'.Inv) (hv : D'.vert = D.vert) : D'.verts = D.verts := by
  ext w
  rw [h.mem_verts, h'.mem_verts]
  unfold Alive
  rw [hv]

theorem same_of_graph {D D' : Diagram} (h : D.Inv) (h' : D'.Inv) (hg : graph D' = graph D) (i : D'.inputs = D.inputs)
    (o : D'.outputs = D.outputs) (g : D'.globalPhase = D.globalPhase) : D.Same D' := by
  refine ⟨i, o, 1, one_pos, fun ρ b => ?_⟩
  have hv : D'.verts = D.verts := verts_of_vert h h' (congrArg Graph.vert hg)
  have hi : D'.inner = D.inner := by
    unfold inner
    rw [hv, hg]
  unfold val
  rw [hi, hg, hv, g]
  simp

theorem graph_added0 {D : Diagram} (h : D.Inv) {u v : ℕ} (hu : D.Alive u) (hv : D.Alive v) (huv : u ≠ v)
    (h0 : (graph D).total u v = 0) (t : EType) :
    graph (D.added u v t) = (graph D).setM u v fun s => if s = t then 1 else 0 := by
  rw [graph_added h hu hv huv t]
  have : ∀ s, D.mult u v s = 0 := by
    intro s
    have := Graph.m_of_total h0 s
    unfold graph at this
    simp only at this
    rw [if_pos ⟨hu, hv⟩] at this
    exact this
  simp only [this, zero_add]

theorem dead_total {D : Diagram} {n : ℕ} (hn : ¬ D.Alive n) (a : ℕ) : (graph D).total a n = 0 ∧ (graph D).total n a = 0 := by
  constructor
  · by_contra hc
    exact hn (total_pos (Nat.pos_of_ne_zero hc)).2
  · by_contra hc
    exact hn (total_pos (Nat.pos_of_ne_zero hc)).1

theorem addVertex_size (D : Diagram) (d : VData) : D.size ≤ (D.addVertex d).1.size := by
  unfold addVertex
  cases D.deleted.getLast? <;> simp

/-- `D'` has the meaning of `D`, and more vertices; only `v` and boundary vertices have changed. -/
structure Ext (v : ℕ) (D D' : Diagram) : Prop where
  good : D'.Good
  size : D.size ≤ D'.size
  same : D.Same D'
  alive : ∀ w, D.Alive w → D'.Alive w
  vert : ∀ w, w ≠ v → D.Alive w → D'.vert w = D.vert w
  ty : ∀ w, D.Alive w → (graph D').ty w = (graph D).ty w
  adj : ∀ w, w ≠ v → (graph D).ty w ≠ .boundary → D'.adj w = D.adj w
  keep : ∀ e ∈ D.adj v, (graph D).ty e.tgt ≠ .boundary → e ∈ D'.adj v

theorem Ext.refl {D : Diagram} (h : D.Good) (v : ℕ) : Ext v D D :=
  ⟨h, le_rfl, .refl D, fun _ h => h, fun _ _ _ => rfl, fun _ _ => rfl, fun _ _ _ => rfl, fun _ h _ => h⟩

theorem Ext.trans {v : ℕ} {D D₁ D₂ : Diagram} (h : D.Inv) (hv : D.Alive v) (e : Ext v D D₁) (e' : Ext v D₁ D₂) : Ext v D D₂ where
  good := e'.good
  size := e.size.trans e'.size
  same := e.same.trans e'.same
  alive w hw := e'.alive w (e.alive w hw)
  vert w hne hw := (e'.vert w hne (e.alive w hw)).trans (e.vert w hne hw)
  ty w hw := (e'.ty w (e.alive w hw)).trans (e.ty w hw)
  adj w hne hw := (e'.adj w hne (by rw [e.ty w (alive_of_inner hw)]; exact hw)).trans (e.adj w hne hw)
  keep ed hed hb := e'.keep ed (e.keep ed hed hb) (by rw [e.ty _ (h.nb v hv ed hed).1]; exact hb)

/-! ### Making a vertex interior -/

theorem interior_step {D : Diagram} (h : D.Good) {v : ℕ} (hz : (graph D).ty v = .z) {e : Edge} (he : e ∈ D.adj v)
    (hb : (graph D).ty e.tgt = .boundary) (q : ℤ) :
    ∃ D1 D2 D3 D4 n, D.addVertex ⟨q, Phase.zero, .z⟩ = (D1, n) ∧ D1.addEdge v n .hadamard = some D2 ∧
      D2.addEdge e.tgt n (if e.type = .simple then .hadamard else .simple) = some D3 ∧ D3.removeEdge v e.tgt = some D4 ∧
      Ext v D D4 ∧ D4.vert v = D.vert v ∧ ¬ D.Alive n ∧ (graph D4).ty n = .z ∧
      D4.adj v = (D.adj v).filter (fun e' => e'.tgt ≠ e.tgt) ++ [⟨n, .hadamard⟩] := by
  obtain ⟨b, t⟩ := e
  simp only at hb ⊢
  have av : D.Alive v := alive_of_inner (by rw [hz]; simp)
  have ab : D.Alive b := (h.inv.nb v av _ he).1
  have hbv : b ≠ v := (h.inv.nb v av _ he).2
  set t' : EType := if t = .simple then .hadamard else .simple with ht'
  obtain ⟨i1, nn, v1, a1, ve1, g1, in1, ou1⟩ := addVertex_inv h.inv ⟨q, Phase.zero, .z⟩
  obtain ⟨_, gr1⟩ := graph_addVertex h.inv ⟨q, Phase.zero, .z⟩
  set D1 := (D.addVertex ⟨q, Phase.zero, .z⟩).1
  set n := (D.addVertex ⟨q, Phase.zero, .z⟩).2
  have hnv : v ≠ n := by rintro rfl; exact nn av
  have hnb : b ≠ n := by rintro rfl; exact nn ab
  have al1 : ∀ w, D.Alive w → D1.Alive w := by
    rintro w ⟨d, hd⟩
    refine ⟨d, ?_⟩
    rw [v1, Function.update_of_ne, hd]
    rintro rfl; exact nn ⟨d, hd⟩
  have an : D1.Alive n := ⟨_, by rw [v1, Function.update_self]⟩
  have T1 : ∀ a c, (graph D1).total a c = (graph D).total a c := by
    intro a c
    rw [gr1]; rfl
  obtain ⟨e2, i2⟩ := added_inv i1 (al1 v av) an hnv .hadamard
  have gr2 := graph_added0 i1 (al1 v av) an hnv (by rw [T1]; exact (dead_total nn v).1) .hadamard
  set D2 := D1.added v n .hadamard with hD2
  have T2 : ∀ a c, (graph D2).total a c = if (a = v ∧ c = n) ∨ (a = n ∧ c = v) then 1 else (graph D).total a c := by
    intro a c
    rw [gr2, Graph.total_setM, T1]; rfl
  obtain ⟨e3, i3⟩ := added_inv i2 (u := b) (v := n) (al1 b ab) an hnb t'
  have gr3 := graph_added0 i2 (u := b) (v := n) (al1 b ab) an hnb
    (by rw [T2, if_neg (by rintro (⟨q, _⟩ | ⟨q, _⟩); exacts [hbv q, hnb q])]; exact (dead_total nn b).1) t'
  set D3 := D2.added b n t' with hD3
  have T3 : ∀ a c, (graph D3).total a c = if (a = b ∧ c = n) ∨ (a = n ∧ c = b) then 1
      else if (a = v ∧ c = n) ∨ (a = n ∧ c = v) then 1 else (graph D).total a c := by
    intro a c
    rw [gr3, Graph.total_setM, T2]
    congr 1
    cases t' <;> rfl
  have Tvb : (graph D).total v b = 1 := by
    have h1 := total_of_mem h.inv av he
    have h2 := h.simple v b
    simp only at h1
    omega
  have Tvb3 : (graph D3).total v b = 1 := by
    rw [T3, if_neg (by rintro (⟨q, _⟩ | ⟨q, _⟩); exacts [hbv q.symm, hnv q]),
      if_neg (by rintro (⟨_, q⟩ | ⟨q, _⟩); exacts [hnb q, hnv q]), Tvb]
  have cvb3 : D3.conn v b = 1 := by rw [← graph_total (D := D3) (al1 v av) (al1 b ab)]; exact Tvb3
  obtain ⟨D4, e4, i4, rfl⟩ := removeEdge_inv i3 (al1 v av) (al1 b ab) hbv.symm cvb3
  have gr4 : graph (D3.dropped v b) = _ := graph_dropped (D := D3) (u := v) (v := b) (al1 v av) (al1 b ab) hbv.symm
  change (D3.dropped v b).Inv at i4
  change D3.removeEdge v b = some (D3.dropped v b) at e4
  set D4 := D3.dropped v b with hD4
  have T4 : ∀ a c, (graph D4).total a c = if (a = v ∧ c = b) ∨ (a = b ∧ c = v) then 0
      else if (a = b ∧ c = n) ∨ (a = n ∧ c = b) then 1
      else if (a = v ∧ c = n) ∨ (a = n ∧ c = v) then 1 else (graph D).total a c := by
    intro a c
    rw [gr4, Graph.total_setM, T3]
  have v4 : D4.vert = update D.vert n (some ⟨q, Phase.zero, .z⟩) := v1
  have al4 : ∀ w, D.Alive w → D4.Alive w := al1
  have an4 : D4.Alive n := an
  have ty4 : ∀ w, D.Alive w → (graph D4).ty w = (graph D).ty w := by
    rintro w ⟨d, hd⟩
    rw [ty_of_vert hd, ty_of_vert (D := D4)]
    rw [v4, Function.update_of_ne, hd]
    rintro rfl; exact nn ⟨d, hd⟩
  have tyn : (graph D4).ty n = .z := ty_of_vert (d := ⟨q, Phase.zero, .z⟩) (by rw [v4, Function.update_self])
  have aliveOr : ∀ w, D4.Alive w → D.Alive w ∨ w = n := by
    rintro w ⟨d, hd⟩
    by_cases hw : w = n
    · exact .inr hw
    · rw [v4, Function.update_of_ne hw] at hd
      exact .inl ⟨d, hd⟩
  have adj2 : ∀ w, D2.adj w = if w = n then [⟨v, .hadamard⟩] else if w = v then D.adj v ++ [⟨n, .hadamard⟩] else D.adj w := by
    intro w
    rw [hD2]
    unfold added
    simp only
    rw [a1]
    split_ifs with h1 h2
    · rw [h1, Function.update_self, Function.update_self]; rfl
    · rw [h2, Function.update_of_ne hnv, Function.update_self, Function.update_of_ne hnv]
    · rw [Function.update_of_ne h1, Function.update_of_ne h2, Function.update_of_ne h1]
  have adj3 : ∀ w, D3.adj w = if w = n then [⟨v, .hadamard⟩, ⟨b, t'⟩] else if w = v then D.adj v ++ [⟨n, .hadamard⟩]
      else if w = b then D.adj b ++ [⟨n, t'⟩] else D.adj w := by
    intro w
    rw [hD3]
    unfold added
    simp only
    split_ifs with h1 h2 h3
    · rw [h1, Function.update_self, adj2, if_pos rfl]; rfl
    · rw [h2, Function.update_of_ne hnv, Function.update_of_ne hbv.symm, adj2, if_neg hnv, if_pos rfl]
    · rw [h3, Function.update_of_ne hnb, Function.update_self, adj2, if_neg hnb, if_neg hbv]
    · rw [Function.update_of_ne h1, Function.update_of_ne h3, adj2, if_neg h1, if_neg h2]
  have adjn : D4.adj n = [⟨v, .hadamard⟩, ⟨b, t'⟩] := by
    rw [hD4]
    unfold dropped
    simp only
    rw [Function.update_of_ne hnb.symm, Function.update_of_ne hnv.symm, adj3, if_pos rfl]
  have adjv : D4.adj v = (D.adj v).filter (fun e' => e'.tgt ≠ b) ++ [⟨n, .hadamard⟩] := by
    rw [hD4]
    unfold dropped
    simp only
    rw [Function.update_of_ne hbv.symm, Function.update_self, adj3, if_neg hnv, if_pos rfl, List.filter_append]
    simp [hnb.symm]
  have adjw : ∀ w, w ≠ v → (graph D).ty w ≠ .boundary → D4.adj w = D.adj w := by
    intro w h1 h2
    have h3 : w ≠ b := by rintro rfl; exact h2 hb
    have h4 : w ≠ n := by rintro rfl; exact nn (alive_of_inner h2)
    rw [hD4]
    unfold dropped
    simp only
    rw [Function.update_of_ne h3, Function.update_of_ne h1, adj3, if_neg h4, if_neg h1, if_neg h3]
  have good4 : D4.Good := by
    refine ⟨i4, ?_, ?_, ?_⟩
    · intro a c
      rw [T4]
      split_ifs
      · omega
      · omega
      · omega
      · exact h.simple a c
    · intro c u w hc hu hw
      have c1 : c ≠ n := by rintro rfl; rw [tyn] at hc; exact absurd hc (by simp)
      have c2 : c ≠ v := by rintro rfl; rw [ty4 _ av, hz] at hc; exact absurd hc (by simp)
      have ac : D.Alive c := by
        rcases aliveOr c (total_pos hu).1 with hh | hh
        · exact hh
        · exact absurd hh c1
      rw [ty4 c ac] at hc
      have key : ∀ z, 0 < (graph D4).total c z → (c = b ∧ z = n) ∨ (c ≠ b ∧ 0 < (graph D).total c z) := by
        intro z hz'
        rw [T4] at hz'
        by_cases hcb : c = b
        · left
          refine ⟨hcb, ?_⟩
          by_contra hzn
          split_ifs at hz' with k1 k2 k3
          · omega
          · rcases k2 with k2 | k2
            · exact hzn k2.2
            · exact c1 k2.1
          · rcases k3 with k3 | k3
            · exact c2 k3.1
            · exact c1 k3.1
          · rw [hcb] at hz'
            have := h.bd b z v hb hz' (by rw [graph_total_symm h.inv, Tvb]; exact one_pos)
            exact k1 (.inr ⟨hcb, this⟩)
        · right
          refine ⟨hcb, ?_⟩
          split_ifs at hz' with k1 k2 k3
          · omega
          · rcases k2 with k2 | k2
            · exact absurd k2.1 hcb
            · exact absurd k2.1 c1
          · rcases k3 with k3 | k3
            · exact absurd k3.1 c2
            · exact absurd k3.1 c1
          · exact hz'
      rcases key u hu with k1 | k1 <;> rcases key w hw with k2 | k2
      · rw [k1.2, k2.2]
      · exact absurd k1.1 k2.1
      · exact absurd k2.1 k1.1
      · exact h.bd c u w hc k1.2 k2.2
    · intro w d hd
      rw [v4] at hd
      by_cases hw : w = n
      · rw [hw, Function.update_self] at hd
        simp only [Option.some.injEq] at hd
        rw [← hd]
        exact Phase.zero_inRange
      · rw [Function.update_of_ne hw] at hd
        exact h.range w d hd
  -- removing the new vertex again gives the graph we had
  have same4 : D4.Same D := by
    have vn : D4.vert n = some ⟨q, Phase.zero, .z⟩ := by rw [v4, Function.update_self]
    have hck : D4.checkIdSimp n := by
      refine ⟨by rw [adjn]; rfl, ⟨_, (type_of_alive i4 vn).2, ?_⟩, _, (type_of_alive i4 vn).1, by simp⟩
      exact Phase.isZero_zero
    obtain ⟨D', hr, g', s', _, _⟩ := removeId_sound good4 hck
    unfold removeId at hr
    rw [if_pos (i4.lt an4), adjn] at hr
    simp only at hr
    have htt : (if EType.hadamard ≠ t' then EType.hadamard else .simple) = t := by
      rw [ht']; cases t <;> simp
    rw [htt] at hr
    obtain ⟨dv, hdv⟩ := al4 v av
    obtain ⟨db, hdb⟩ := al4 b ab
    have c4 : D4.conn v b = 0 := by
      rw [← graph_total (D := D4) (al4 v av) (al4 b ab), T4, if_pos (.inl ⟨rfl, rfl⟩)]
    obtain ⟨D5, f1, f2, f3⟩ := addEPA_result i4 hdv hdb hbv.symm (by omega) t
    have hD5 : D5 = D4.added v b t := by
      cases f3 <;> first | rfl | omega
    subst hD5
    rw [f1] at hr
    simp only [Option.bind_eq_bind, Option.bind_some] at hr
    rw [removeVertex_eq f2 (show (D4.added v b t).Alive n from an4)] at hr
    simp only [Option.some.injEq] at hr
    subst hr
    refine s'.trans (Same.symm (same_of_graph h.inv g'.inv ?_ ?_ ?_ ?_))
    · rw [graph_without, graph_added0 i4 (al4 v av) (al4 b ab) hbv.symm (by rw [T4, if_pos (.inl ⟨rfl, rfl⟩)])]
      have hmvb : ∀ s, (graph D).m v b s = if s = t then 1 else 0 := by
        have hm : 0 < (graph D).m v b t := by
          unfold graph mult
          simp only
          rw [if_pos ⟨av, ab⟩, List.count_pos_iff]
          exact he
        unfold Graph.total at Tvb
        intro s
        cases s <;> cases t <;> simp <;> omega
      have hmbv : ∀ s, (graph D).m b v s = if s = t then 1 else 0 := by
        intro s; rw [graph_symm h.inv]; exact hmvb s
      have hdead : ∀ a s, (graph D).m a n s = 0 ∧ (graph D).m n a s = 0 := fun a s =>
        ⟨Graph.m_of_total (dead_total nn a).1 s, Graph.m_of_total (dead_total nn a).2 s⟩
      have e1 : update (D4.added v b t).vert n none = (graph D).vert := by
        show update D4.vert n none = D.vert
        rw [v4, Function.update_idem]
        have : D.vert n = none := by
          cases hx : D.vert n with
          | none => rfl
          | some x => exact absurd ⟨x, hx⟩ nn
        rw [← this, Function.update_eq_self]
      rw [e1]
      show Graph.mk _ _ = Graph.mk (graph D).vert (graph D).m
      refine congrArg (Graph.mk _) ?_
      funext a c s
      by_cases ha : a = n ∨ c = n
      · rw [if_pos ha]
        rcases ha with ha | ha
        · rw [ha]; exact (hdead c s).2.symm
        · rw [ha]; exact (hdead a s).1.symm
      · rw [if_neg ha, Graph.m_setM]
        by_cases k1 : (a = v ∧ c = b) ∨ (a = b ∧ c = v)
        · rw [if_pos k1]
          rcases k1 with ⟨rfl, rfl⟩ | ⟨rfl, rfl⟩
          · exact (hmvb s).symm
          · exact (hmbv s).symm
        · rw [if_neg k1, gr4, Graph.m_setM, if_neg k1, gr3, Graph.m_setM, if_neg (by tauto), gr2, Graph.m_setM, if_neg (by tauto), gr1]
    · exact in1
    · exact ou1
    · exact g1
  refine ⟨D1, D2, D3, D4, n, rfl, e2, e3, e4, ⟨good4, addVertex_size _ _, same4.symm, al4, ?_, ty4, adjw, ?_⟩, ?_, nn, tyn, adjv⟩
  · intro w _ hw
    rw [v4, Function.update_of_ne]
    rintro rfl; exact nn hw
  · intro e' he' hb'
    rw [adjv]
    simp only [List.mem_append, List.mem_filter]
    left
    refine ⟨he', ?_⟩
    simp only [ne_eq, decide_not, Bool.not_eq_true', decide_eq_false_iff_not]
    rintro hx
    rw [hx] at hb'
    exact hb' hb
  · rw [v4, Function.update_of_ne hnv]

theorem interiorLoop_ext {v : ℕ} (q : ℤ) : ∀ (l : List Edge) (D₁ : Diagram), D₁.Good → (graph D₁).ty v = .z →
    (l.map Edge.tgt).Nodup → (∀ e ∈ l, e ∈ D₁.adj v) →
    (∀ e ∈ l, (graph D₁).ty e.tgt ≠ .boundary → (graph D₁).ty e.tgt = .z ∧ e.type = .hadamard) →
    (∀ e ∈ D₁.adj v, e ∈ l ∨ (graph D₁).ty e.tgt = .z ∧ e.type = .hadamard) →
    ∃ D₂, interiorLoop v q l D₁ = some D₂ ∧ Ext v D₁ D₂ ∧ D₂.vert v = D₁.vert v ∧
      ∀ e ∈ D₂.adj v, (graph D₂).ty e.tgt = .z ∧ e.type = .hadamard := by
  intro l
  induction l with
  | nil =>
    intro D₁ g _ _ _ _ hall
    exact ⟨D₁, rfl, .refl g v, rfl, fun e he => by simpa using hall e he⟩
  | cons e r ih =>
    intro D₁ g hz hnd hin hh hall
    rw [List.map_cons, List.nodup_cons] at hnd
    have av : D₁.Alive v := alive_of_inner (by rw [hz]; simp)
    have he := hin e List.mem_cons_self
    obtain ⟨ae, _⟩ := g.inv.nb v av e he
    unfold interiorLoop
    obtain ⟨de, hde⟩ := ae
    rw [(type_of_alive g.inv hde).1]
    simp only [Option.bind_eq_bind, Option.bind_some]
    by_cases hb : de.type = .boundary
    · rw [if_pos hb]
      obtain ⟨E1, E2, E3, E4, n, e1, e2, e3, e4, ext, hv4, nn, tyn, adj4⟩ :=
        interior_step g hz he (by rw [ty_of_vert hde]; exact hb) q
      rw [e1]
      simp only
      rw [e2, Option.bind_some, e3, Option.bind_some, e4, Option.bind_some]
      have hz4 : (graph E4).ty v = .z := by rw [ext.ty v av, hz]
      have sub : ∀ e' ∈ r, e' ∈ E4.adj v := by
        intro e' he'
        rw [adj4]
        simp only [List.mem_append, List.mem_filter]
        refine .inl ⟨hin e' (List.mem_cons_of_mem _ he'), ?_⟩
        simp only [ne_eq, decide_not, Bool.not_eq_true', decide_eq_false_iff_not]
        intro hx
        exact hnd.1 (hx ▸ List.mem_map_of_mem he')
      have al : ∀ e' ∈ D₁.adj v, D₁.Alive e'.tgt := fun e' h' => (g.inv.nb v av e' h').1
      obtain ⟨D₂, h1, h2, h3, h4⟩ := ih E4 ext.good hz4 hnd.2 sub
        (by
          intro e' he' hb'
          rw [ext.ty _ (al e' (hin e' (List.mem_cons_of_mem _ he')))] at hb' ⊢
          exact hh e' (List.mem_cons_of_mem _ he') hb')
        (by
          intro e' he'
          rw [adj4, List.mem_append] at he'
          rcases he' with he' | he'
          · rw [List.mem_filter] at he'
            rw [ext.ty _ (al e' he'.1)]
            rcases hall e' he'.1 with k | k
            · rcases List.mem_cons.1 k with rfl | k
              · simp at he'
              · exact .inl k
            · exact .inr k
          · rw [List.mem_singleton] at he'
            subst he'
            exact .inr ⟨tyn, rfl⟩)
      exact ⟨D₂, h1, ext.trans g.inv av h2, h3.trans hv4, h4⟩
    · rw [if_neg hb]
      refine ih D₁ g hz hnd.2 (fun e' h' => hin e' (List.mem_cons_of_mem _ h')) (fun e' h' => hh e' (List.mem_cons_of_mem _ h')) ?_
      intro e' he'
      rcases hall e' he' with k | k
      · rcases List.mem_cons.1 k with rfl | k
        · exact .inr (hh e' List.mem_cons_self (by rw [ty_of_vert hde]; exact hb))
        · exact .inl k
      · exact .inr k

theorem Simple.nodup {D : Diagram} (hs : D.Simple) (h : D.Inv) {v : ℕ} (hv : D.Alive v) : ((D.adj v).map Edge.tgt).Nodup := by
  rw [List.nodup_iff_count_le_one]
  intro w
  rw [List.count_eq_countP, List.countP_map]
  by_cases hw : D.Alive w
  · have := hs v w
    rw [graph_total hv hw] at this
    unfold conn at this
    refine le_trans (le_of_eq ?_) this
    congr 1
  · rw [List.countP_eq_zero.2]
    · omega
    · intro e he hx
      simp only [Function.comp, beq_iff_eq] at hx
      exact hw (hx ▸ (h.nb v hv e he).1)

/-- Every neighbour is a Z spider behind a Hadamard edge, or a boundary vertex. -/
def PivotLegs (D : Diagram) (v : ℕ) : Prop :=
  ∀ e ∈ D.adj v, (graph D).ty e.tgt ≠ .boundary → (graph D).ty e.tgt = .z ∧ e.type = .hadamard

theorem ensureInterior_ext {D : Diagram} (h : D.Good) {v : ℕ} (hz : (graph D).ty v = .z) (hl : D.PivotLegs v) :
    ∃ D₂, D.ensureInterior v = some D₂ ∧ Ext v D D₂ ∧ D₂.vert v = D.vert v ∧
      ∀ e ∈ D₂.adj v, (graph D₂).ty e.tgt = .z ∧ e.type = .hadamard := by
  have av : D.Alive v := alive_of_inner (by rw [hz]; simp)
  obtain ⟨d, hd⟩ := av
  obtain ⟨D₂, h1, h2⟩ := interiorLoop_ext (v := v) d.qubit (D.adj v) D h hz (h.simple.nodup h.inv ⟨d, hd⟩) (fun _ h => h)
    hl (fun _ h => .inl h)
  refine ⟨D₂, ?_, h2⟩
  unfold ensureInterior
  rw [if_pos (h.inv.lt ⟨d, hd⟩), hd]
  exact h1

/-! ### Gadgets -/

/-- Giving a phase to a vertex that has none. -/
theorem rephase_step {D : Diagram} (h : D.Inv) (V : Finset ℕ) {v : ℕ} {d : VData} (hd : D.vert v = some d)
    (hb : d.type ≠ .boundary) (h0 : ∀ ρ, d.phase.u ρ = 1) {p : Phase} (hp : p.const.InRange) (P : ℕ → ℕ → Prop) :
    Step V D { D with vert := update D.vert v (some { d with phase := p }) } P
      fun ρ x => if v ∈ V then (if x v = true then p.u ρ else 1) else 1 := by
  set D' : Diagram := { D with vert := update D.vert v (some { d with phase := p }) } with hD'
  have al : ∀ w, D'.Alive w ↔ D.Alive w := by
    intro w
    unfold Alive
    rw [hD']
    simp only
    by_cases hw : w = v
    · rw [hw, Function.update_self, hd]; simp
    · rw [Function.update_of_ne hw]
  have hve : D'.verts = D.verts := by
    unfold verts
    simp only [al]
    rfl
  have hty : ∀ w, (D'.vert w).map VData.type = (D.vert w).map VData.type := by
    intro w
    rw [hD']
    simp only
    by_cases hw : w = v
    · rw [hw, Function.update_self, hd]; rfl
    · rw [Function.update_of_ne hw]
  have inv : D'.Inv := by
    refine ⟨?_, ?_, h.nodup, by rw [hve]; exact h.nv, by rw [hve]; exact h.ne, ?_, ?_⟩
    · intro u hu
      have := h.out u hu
      have huv : u ≠ v := by rintro rfl; rw [hd] at this; simp at this
      rw [hD']
      simp only
      rw [Function.update_of_ne huv, this]
    · intro u
      have : D'.vert u = none ↔ D.vert u = none := by
        have := hty u
        cases h1 : D'.vert u <;> cases h2 : D.vert u <;> rw [h1, h2] at this <;> simp at this ⊢
      rw [this]
      exact h.del u
    · intro u w t hu hw
      exact h.sym u w t ((al u).1 hu) ((al w).1 hw)
    · intro u hu e he
      obtain ⟨k1, k2⟩ := h.nb u ((al u).1 hu) e he
      exact ⟨(al _).2 k1, k2⟩
  have hm : (graph D').m = (graph D).m := by
    funext a b t
    unfold graph
    simp only [al]
    rfl
  refine ⟨inv, ?_, ?_, rfl, hty, rfl, rfl, rfl, fun a b _ => by rw [hm], fun _ _ => rfl, ?_⟩
  · intro hs a b
    unfold Graph.total
    rw [hm]
    exact hs a b
  · intro hr w d' hd'
    rw [hD'] at hd'
    simp only at hd'
    by_cases hw : w = v
    · rw [hw, Function.update_self] at hd'
      simp only [Option.some.injEq] at hd'
      rw [← hd']
      exact hp
    · rw [Function.update_of_ne hw] at hd'
      exact hr w d' hd'
  · intro ρ x
    have hpf : ∀ a b, (graph D').pf x a b = (graph D).pf x a b := by
      intro a b
      have : ∀ w, (graph D').ty w = (graph D).ty w := by
        intro w
        unfold Graph.ty graph
        simp only
        rw [hty]
      unfold Graph.pf
      rw [hm, this, this]
    have hvf : ∀ w, (graph D').vf ρ x w = (graph D).vf ρ x w * if w = v then (if x v = true then p.u ρ else 1) else 1 := by
      intro w
      by_cases hw : w = v
      · subst hw
        rw [vf_inner ρ hd hb, vf_inner ρ (d := { d with phase := p }) (by rw [hD']; simp only; rw [Function.update_self]) hb,
          if_pos rfl, h0, ite_self, one_mul]
      · rw [if_neg hw, mul_one]
        unfold Graph.vf graph
        simp only
        rw [hD']
        simp only
        rw [Function.update_of_ne hw]
    unfold Graph.W
    simp only [hpf, hvf]
    rw [Finset.prod_mul_distrib, Finset.prod_ite_eq']
    ring

theorem extractGadget_ext {D : Diagram} (h : D.Good) {v : ℕ} (hz : (graph D).ty v = .z) :
    ∃ D₂ n, D.extractGadget v = some D₂ ∧ Ext v D D₂ ∧ ¬ D.Alive n ∧ (graph D₂).ty n = .z ∧
      (∃ d, D₂.vert v = some d ∧ d.phase = Phase.zero) ∧ D₂.adj v = D.adj v ++ [⟨n, .hadamard⟩] := by
  have av : D.Alive v := alive_of_inner (by rw [hz]; simp)
  obtain ⟨d, hd⟩ := id av
  have hdt : d.type = .z := by rw [← ty_of_vert hd, hz]
  -- the vertex for the phase
  obtain ⟨i1, nn, v1, a1, ve1, g1, in1, ou1⟩ := addVertex_inv h.inv ⟨d.qubit, d.phase, .z⟩
  obtain ⟨_, gr1⟩ := graph_addVertex h.inv ⟨d.qubit, d.phase, .z⟩
  set D1 := (D.addVertex ⟨d.qubit, d.phase, .z⟩).1 with hD1
  set ph := (D.addVertex ⟨d.qubit, d.phase, .z⟩).2 with hph
  have hvp : v ≠ ph := by rintro rfl; exact nn av
  -- the vertex in the middle
  obtain ⟨i2, nn2, v2, a2, ve2, g2, in2, ou2⟩ := addVertex_inv i1 ⟨d.qubit, Phase.zero, .z⟩
  obtain ⟨_, gr2⟩ := graph_addVertex i1 ⟨d.qubit, Phase.zero, .z⟩
  set D2 := (D1.addVertex ⟨d.qubit, Phase.zero, .z⟩).1 with hD2
  set n := (D1.addVertex ⟨d.qubit, Phase.zero, .z⟩).2 with hn
  have al1 : ∀ w, D1.Alive w ↔ D.Alive w ∨ w = ph := by
    intro w
    unfold Alive
    rw [v1]
    by_cases hw : w = ph
    · rw [hw, Function.update_self]; simp
    · rw [Function.update_of_ne hw]; simp [hw]
  have hpn : ph ≠ n := fun e => nn2 ((al1 n).2 (.inr e.symm))
  have nnD : ¬ D.Alive n := fun e => nn2 ((al1 n).2 (.inl e))
  have hvn : v ≠ n := fun e => nnD (e ▸ av)
  have al2 : ∀ w, D2.Alive w ↔ D.Alive w ∨ w = ph ∨ w = n := by
    intro w
    unfold Alive
    rw [v2]
    by_cases hw : w = n
    · rw [hw, Function.update_self]; simp
    · rw [Function.update_of_ne hw]
      have := al1 w
      unfold Alive at this
      rw [this]; simp [hw]
  have hd2 : D2.vert v = some d := by rw [v2, Function.update_of_ne hvn, v1, Function.update_of_ne hvp, hd]
  have T2 : ∀ a c, (graph D2).total a c = (graph D).total a c := by
    intro a c
    rw [gr2]
    show (graph D1).total a c = _
    rw [gr1]; rfl
  have vD : D.vert ph = none := by
    cases hx : D.vert ph with
    | none => rfl
    | some x => exact absurd ⟨x, hx⟩ nn
  have vD' : D.vert n = none := by
    cases hx : D.vert n with
    | none => rfl
    | some x => exact absurd ⟨x, hx⟩ nnD
  -- `D3`: the phase of `v` is set to zero; its weight is irrelevant here
  set D3 : Diagram := { D2 with vert := update D2.vert v (some { d with phase := Phase.zero }) } with hD3
  have al3 : ∀ w, D3.Alive w ↔ D2.Alive w := by
    intro w
    unfold Alive
    rw [hD3]
    simp only
    by_cases hw : w = v
    · rw [hw, Function.update_self, hd2]; simp
    · rw [Function.update_of_ne hw]
  have m3 : (graph D3).m = (graph D2).m := by
    funext a b t
    unfold graph
    simp only [al3]
    rfl
  have i3 : D3.Inv := by
    have hve : D3.verts = D2.verts := by
      unfold verts
      simp only [al3]
      rfl
    refine ⟨?_, ?_, i2.nodup, by rw [hve]; exact i2.nv, by rw [hve]; exact i2.ne, ?_, ?_⟩
    · intro u hu
      have := i2.out u hu
      have huv : u ≠ v := by rintro rfl; rw [hd2] at this; simp at this
      rw [hD3]
      simp only
      rw [Function.update_of_ne huv, this]
    · intro u
      have : D3.vert u = none ↔ D2.vert u = none := by
        rw [hD3]
        simp only
        by_cases hw : u = v
        · rw [hw, Function.update_self, hd2]; simp
        · rw [Function.update_of_ne hw]
      rw [this]
      exact i2.del u
    · intro u w t hu hw
      exact i2.sym u w t ((al3 u).1 hu) ((al3 w).1 hw)
    · intro u hu e he
      obtain ⟨k1, k2⟩ := i2.nb u ((al3 u).1 hu) e he
      exact ⟨(al3 _).2 k1, k2⟩
  have T3 : ∀ a c, (graph D3).total a c = (graph D).total a c := by
    intro a c
    rw [← T2]
    unfold Graph.total
    rw [m3]
  have e3 : D2.setPhase v Phase.zero = some D3 := by
    unfold setPhase
    rw [if_pos (i2.lt ⟨d, hd2⟩), hd2]
  have av3 : D3.Alive v := (al3 v).2 ⟨d, hd2⟩
  have an3 : D3.Alive n := (al3 n).2 ((al2 n).2 (.inr (.inr rfl)))
  have ap3 : D3.Alive ph := (al3 ph).2 ((al2 ph).2 (.inr (.inl rfl)))
  obtain ⟨e4, i4⟩ := added_inv i3 av3 an3 hvn .hadamard
  have gr4 := graph_added0 i3 av3 an3 hvn (by rw [T3]; exact (dead_total nnD v).1) .hadamard
  set D4 := D3.added v n .hadamard with hD4
  have T4 : ∀ a c, (graph D4).total a c = if (a = v ∧ c = n) ∨ (a = n ∧ c = v) then 1 else (graph D).total a c := by
    intro a c
    rw [gr4, Graph.total_setM, T3]; rfl
  obtain ⟨e5, i5⟩ := added_inv i4 (u := n) (v := ph) an3 ap3 hpn.symm .hadamard
  have gr5 := graph_added0 i4 (u := n) (v := ph) an3 ap3 hpn.symm
    (by rw [T4, if_neg (by rintro (⟨q, _⟩ | ⟨_, q⟩); exacts [hvn q.symm, hvp q.symm])]; exact (dead_total nn n).1) .hadamard
  set D5 := D4.added n ph .hadamard with hD5
  have T5 : ∀ a c, (graph D5).total a c = if (a = n ∧ c = ph) ∨ (a = ph ∧ c = n) then 1
      else if (a = v ∧ c = n) ∨ (a = n ∧ c = v) then 1 else (graph D).total a c := by
    intro a c
    rw [gr5, Graph.total_setM, T4]; rfl
  have v5 : D5.vert = update (update (update D.vert ph (some ⟨d.qubit, d.phase, .z⟩)) n (some ⟨d.qubit, Phase.zero, .z⟩)) v
      (some { d with phase := Phase.zero }) := by
    show update D2.vert v _ = _
    rw [v2, v1]
  have v5v : D5.vert v = some { d with phase := Phase.zero } := by rw [v5, Function.update_self]
  have v5n : D5.vert n = some ⟨d.qubit, Phase.zero, .z⟩ := by rw [v5, Function.update_of_ne hvn.symm, Function.update_self]
  have v5p : D5.vert ph = some ⟨d.qubit, d.phase, .z⟩ := by
    rw [v5, Function.update_of_ne hvp.symm, Function.update_of_ne hpn, Function.update_self]
  have v5w : ∀ w, w ≠ v → w ≠ n → w ≠ ph → D5.vert w = D.vert w := by
    intro w h1 h2 h3
    rw [v5, Function.update_of_ne h1, Function.update_of_ne h2, Function.update_of_ne h3]
  have al5 : ∀ w, D5.Alive w ↔ D.Alive w ∨ w = ph ∨ w = n := fun w => (al3 w).trans (al2 w)
  have ne_n : ∀ w, D.Alive w → w ≠ n := by rintro w hw rfl; exact nnD hw
  have ne_p : ∀ w, D.Alive w → w ≠ ph := by rintro w hw rfl; exact nn hw
  have ty5 : ∀ w, D.Alive w → (graph D5).ty w = (graph D).ty w := by
    rintro w hw
    by_cases hwv : w = v
    · rw [hwv, ty_of_vert v5v, ty_of_vert hd]
    · obtain ⟨d', hd'⟩ := id hw
      rw [ty_of_vert hd', ty_of_vert (D := D5) (by rw [v5w w hwv (ne_n w hw) (ne_p w hw)]; exact hd')]
  have tyn : (graph D5).ty n = .z := ty_of_vert v5n
  have typ : (graph D5).ty ph = .z := ty_of_vert v5p
  have adj2 : ∀ w, D2.adj w = if w = n then [] else if w = ph then [] else D.adj w := by
    intro w
    rw [a2]
    split_ifs with h1 h2
    · rw [h1, Function.update_self]
    · rw [Function.update_of_ne h1, a1, h2, Function.update_self]
    · rw [Function.update_of_ne h1, a1, Function.update_of_ne h2]
  have adj4 : ∀ w, D4.adj w = if w = n then [⟨v, .hadamard⟩] else if w = ph then []
      else if w = v then D.adj v ++ [⟨n, .hadamard⟩] else D.adj w := by
    intro w
    show (update (update D2.adj v (D2.adj v ++ [⟨n, .hadamard⟩])) n (D2.adj n ++ [⟨v, .hadamard⟩])) w = _
    split_ifs with h1 h2 h3
    · rw [h1, Function.update_self, adj2, if_pos rfl]; rfl
    · rw [Function.update_of_ne h1, h2, Function.update_of_ne hvp.symm, adj2, if_neg hpn, if_pos rfl]
    · rw [Function.update_of_ne h1, h3, Function.update_self, adj2, if_neg hvn, if_neg hvp]
    · rw [Function.update_of_ne h1, Function.update_of_ne h3, adj2, if_neg h1, if_neg h2]
  have adj5 : ∀ w, D5.adj w = if w = n then [⟨v, .hadamard⟩, ⟨ph, .hadamard⟩] else if w = ph then [⟨n, .hadamard⟩]
      else if w = v then D.adj v ++ [⟨n, .hadamard⟩] else D.adj w := by
    intro w
    show (update (update D4.adj n (D4.adj n ++ [⟨ph, .hadamard⟩])) ph (D4.adj ph ++ [⟨n, .hadamard⟩])) w = _
    split_ifs with h1 h2 h3
    · rw [h1, Function.update_of_ne hpn.symm, Function.update_self, adj4, if_pos rfl]; rfl
    · rw [h2, Function.update_self, adj4, if_neg hpn, if_pos rfl]; rfl
    · rw [Function.update_of_ne h2, Function.update_of_ne h1, adj4, if_neg h1, if_neg h2, if_pos h3]
    · rw [Function.update_of_ne h2, Function.update_of_ne h1, adj4, if_neg h1, if_neg h2, if_neg h3]
  have r0 := h.range v d hd
  have good5 : D5.Good := by
    refine ⟨i5, ?_, ?_, ?_⟩
    · intro a c
      rw [T5]
      split_ifs
      · omega
      · omega
      · exact h.simple a c
    · intro c u w hc hu hw
      have c1 : c ≠ n := by rintro rfl; rw [tyn] at hc; exact absurd hc (by simp)
      have c3 : c ≠ ph := by rintro rfl; rw [typ] at hc; exact absurd hc (by simp)
      have c2 : c ≠ v := by rintro rfl; rw [ty5 _ av, hz] at hc; exact absurd hc (by simp)
      have ac : D.Alive c := by
        rcases (al5 c).1 (total_pos hu).1 with hh | hh | hh
        · exact hh
        · exact absurd hh c3
        · exact absurd hh c1
      rw [ty5 c ac] at hc
      have key : ∀ z, (graph D5).total c z = (graph D).total c z := by
        intro z
        rw [T5, if_neg (by tauto), if_neg (by tauto)]
      rw [key] at hu hw
      exact h.bd c u w hc hu hw
    · intro w d' hd'
      rw [v5] at hd'
      simp only [Function.update_apply] at hd'
      split_ifs at hd' with k1 k2 k3
      · simp only [Option.some.injEq] at hd'
        rw [← hd']
        exact Phase.zero_inRange
      · simp only [Option.some.injEq] at hd'
        rw [← hd']
        exact Phase.zero_inRange
      · simp only [Option.some.injEq] at hd'
        rw [← hd']
        exact r0
      · exact h.range w d' hd'
  have same5 : D5.Same D := by
    have hV : v ∈ (D5.verts.erase ph).erase n :=
      Finset.mem_erase.2 ⟨hvn, Finset.mem_erase.2 ⟨hvp, i5.mem_verts.2 ((al5 v).2 (.inl av))⟩⟩
    have st := rephase_step i5 ((D5.verts.erase ph).erase n) v5v (by rw [hdt]; simp) (fun ρ => Phase.u_zero ρ) r0 (fun _ _ => False)
    simp only at st
    have ss := same_of_step2 i5 hpn v5p v5n (by simp) (by simp) st D5.globalPhase 2 two_pos (fun _ => 1) (fun ρ => (mul_one _).symm) ?_
    · have b0 := (st.alive ph).2 ⟨_, v5p⟩
      have b1 : (_ : Diagram).Alive n := (without_alive _ ph n).2 ⟨(st.alive n).2 ⟨_, v5n⟩, hpn.symm⟩
      refine ss.trans (Same.symm (same_of_graph h.inv (without_inv (without_inv st.inv b0) b1) ?_ ?_ ?_ ?_))
      · rw [graph_without, graph_without]
        have hdead : ∀ a s, ((graph D).m a n s = 0 ∧ (graph D).m n a s = 0) ∧ ((graph D).m a ph s = 0 ∧ (graph D).m ph a s = 0) :=
          fun a s => ⟨⟨Graph.m_of_total (dead_total nnD a).1 s, Graph.m_of_total (dead_total nnD a).2 s⟩,
            Graph.m_of_total (dead_total nn a).1 s, Graph.m_of_total (dead_total nn a).2 s⟩
        have e1 : update (update (update D5.vert v (some { d with phase := d.phase })) ph none) n none = (graph D).vert := by
          show _ = D.vert
          funext w
          simp only [Function.update_apply]
          split_ifs with k1 k2 k3
          · rw [k1, vD']
          · rw [k2, vD]
          · rw [k3, hd]
          · exact v5w w k3 k1 k2
        have e2 : (fun a b t => if a = n ∨ b = n then 0 else (fun a b t => if a = ph ∨ b = ph then 0 else
            (graph { D5 with vert := update D5.vert v (some { d with phase := d.phase }) }).m a b t) a b t) = (graph D).m := by
          funext a c s
          have hm := congrFun (st.m a c (fun hF => hF)) s
          simp only
          split_ifs with k1 k2
          · rcases k1 with k1 | k1
            · rw [k1, ((hdead c s).1).2]
            · rw [k1, ((hdead a s).1).1]
          · rcases k2 with k2 | k2
            · rw [k2, ((hdead c s).2).2]
            · rw [k2, ((hdead a s).2).1]
          · rw [hm, gr5, Graph.m_setM, if_neg (by tauto), gr4, Graph.m_setM, if_neg (by tauto), m3, gr2]
            show (graph D1).m a c s = _
            rw [gr1]
        exact congrArg₂ Graph.mk e1 e2
      · exact in2.trans in1
      · exact ou2.trans ou1
      · exact g2.trans g1
    · intro ρ x
      have l1 : ∀ p q, D5.legs ph p (update x n q) = sg p q := by
        intro p q
        unfold legs
        rw [adj5, if_neg hpn, if_pos rfl]
        simp only [List.map_cons, List.map_nil, List.prod_cons, List.prod_nil, mul_one, Function.update_self]
        rw [tyn, typ, ew_hzz]
      have l2 : ∀ p, D5.legsBut ph n p x = sg p (x v) := by
        intro p
        unfold legsBut
        rw [adj5, if_pos rfl]
        simp only [List.map_cons, List.map_nil, List.prod_cons, List.prod_nil, mul_one, ne_eq, not_true, if_false]
        rw [if_pos hvp, tyn, ty5 v av, hz, ew_hzz]
      rw [l1, l1, l1, l1, l2, l2, Phase.u_zero, if_pos hV]
      unfold sg
      cases x v <;> simp <;> ring
  refine ⟨D5, n, ?_, ⟨good5, (addVertex_size _ _).trans (addVertex_size _ _), same5.symm, fun w hw => (al5 w).2 (.inl hw), ?_, ty5, ?_, ?_⟩, nnD, tyn, ⟨_, v5v, rfl⟩, ?_⟩
  · unfold extractGadget
    rw [if_pos (h.inv.lt av), hd]
    simp only [Option.bind_eq_bind]
    show (D2.setPhase v Phase.zero).bind _ = _
    rw [e3, Option.bind_some]
    show (D3.addEdge v n .hadamard).bind _ = _
    rw [e4, Option.bind_some]
    exact e5
  · intro w hne hw
    exact v5w w hne (ne_n w hw) (ne_p w hw)
  · intro w hne hw
    have ha := alive_of_inner hw
    rw [adj5, if_neg (ne_n w ha), if_neg (ne_p w ha), if_neg hne]
  · intro e he _
    rw [adj5, if_neg hvn, if_neg hvp, if_pos rfl]
    exact List.mem_append_left _ he
  · rw [adj5, if_neg hvn, if_neg hvp, if_pos rfl]

/-! ### The pivots -/

theorem phase_of_vert {D : Diagram} (h : D.Inv) {v : ℕ} {d : VData} (hd : D.vert v = some d) : D.phase v = some d.phase :=
  (type_of_alive h hd).2

theorem ensurePauliVertex_ext {D : Diagram} (h : D.Good) {v : ℕ} (hz : (graph D).ty v = .z) (hl : D.PivotLegs v) :
    ∃ D₂, D.ensurePauliVertex v = some D₂ ∧ Ext v D D₂ ∧ D₂.isPauli v ∧
      ∀ e ∈ D₂.adj v, (graph D₂).ty e.tgt = .z ∧ e.type = .hadamard := by
  have av : D.Alive v := alive_of_inner (by rw [hz]; simp)
  obtain ⟨d, hd⟩ := id av
  have first : ∃ D₁, D.extractPauliGadget v = some D₁ ∧ Ext v D D₁ ∧ (∃ d', D₁.vert v = some d' ∧ d'.phase.isPauli) ∧ D₁.PivotLegs v := by
    unfold extractPauliGadget
    rw [phase_of_vert h.inv hd]
    simp only [Option.bind_eq_bind, Option.bind_some]
    by_cases hp : d.phase.isPauli
    · rw [if_pos hp]
      exact ⟨D, rfl, .refl h v, ⟨d, hd, hp⟩, hl⟩
    · rw [if_neg hp]
      obtain ⟨D₂, n, h1, h2, h3, h4, ⟨d', h5, h6⟩, h7⟩ := extractGadget_ext h hz
      refine ⟨D₂, h1, h2, ⟨d', h5, by rw [h6]; exact Phase.isPauli_zero⟩, ?_⟩
      intro e he hb
      rw [h7, List.mem_append] at he
      rcases he with he | he
      · have ha := (h.inv.nb v av e he).1
        rw [h2.ty _ ha] at hb ⊢
        exact hl e he hb
      · rw [List.mem_singleton] at he
        subst he
        exact ⟨h4, rfl⟩
  obtain ⟨D₁, h1, x1, ⟨d', hd', hp⟩, hl1⟩ := first
  obtain ⟨D₂, h2, x2, hv2, hl2⟩ := ensureInterior_ext x1.good (by rw [x1.ty v av, hz]) hl1
  refine ⟨D₂, ?_, x1.trans h.inv av x2, ?_, hl2⟩
  · unfold ensurePauliVertex
    rw [h1]
    exact h2
  · exact ⟨_, phase_of_vert x2.good.inv (by rw [hv2]; exact hd'), hp⟩

theorem checkPivotPauli_of {D : Diagram} (h : D.Good) {v0 v1 : ℕ} (hz : (graph D).ty v0 = .z) (p0 : D.isPauli v0) (p1 : D.isPauli v1)
    (he : ∃ e ∈ D.adj v0, e.tgt = v1) (l0 : ∀ e ∈ D.adj v0, (graph D).ty e.tgt = .z ∧ e.type = .hadamard)
    (l1 : ∀ e ∈ D.adj v1, (graph D).ty e.tgt = .z ∧ e.type = .hadamard) : D.checkPivotPauli v0 v1 := by
  have a0 : D.Alive v0 := alive_of_inner (by rw [hz]; simp)
  have a1 : D.Alive v1 := by
    obtain ⟨e, he, rfl⟩ := he
    exact (h.inv.nb v0 a0 e he).1
  refine ⟨(type_eq_iff h.inv).2 ⟨a0, hz⟩, p0, p1, ?_, fun e he => ⟨(type_eq_iff h.inv).2 ⟨(h.inv.nb v0 a0 e he).1, (l0 e he).1⟩, (l0 e he).2⟩,
    fun e he => ⟨(type_eq_iff h.inv).2 ⟨(h.inv.nb v1 a1 e he).1, (l1 e he).1⟩, (l1 e he).2⟩⟩
  obtain ⟨e, he, ht⟩ := he
  cases hf : findEdge (D.adj v0) v1 with
  | none =>
    have := (conn_zero_iff D v0 v1).1 (findEdge_none.1 hf) e he
    exact absurd ht this
  | some e' =>
    rw [Option.map_some, (l0 e' (findEdge_some hf).1).2]

theorem pivotLegs_of_check {D : Diagram} (h : D.Good) {v : ℕ} (hv : D.Alive v)
    (hl : ∀ e ∈ D.adj v, ¬ ((D.type e.tgt ≠ some .z ∨ e.type ≠ .hadamard) ∧ D.type e.tgt ≠ some .boundary)) : D.PivotLegs v := by
  intro e he hb
  have ha := (h.inv.nb v hv e he).1
  have := hl e he
  have nb : D.type e.tgt ≠ some .boundary := fun k => hb ((type_eq_iff h.inv).1 k).2
  have hzz : D.type e.tgt = some .z ∧ e.type = .hadamard := by
    by_contra hc
    exact this ⟨by tauto, nb⟩
  exact ⟨((type_eq_iff h.inv).1 hzz.1).2, hzz.2⟩

theorem isPauli_of_vert {D D' : Diagram} (h' : D'.Inv) {v : ℕ} (hv : D'.vert v = D.vert v) (hp : D.isPauli v) : D'.isPauli v := by
  obtain ⟨p, hp, hq⟩ := hp
  obtain ⟨d, hd, rfl⟩ := phase_eq hp
  exact ⟨_, phase_of_vert h' (by rw [hv]; exact hd), hq⟩

theorem pivot_sound {D : Diagram} (h : D.Good) {v0 v1 : ℕ} (hc : D.checkPivot v0 v1) :
    ∃ D', D.pivot v0 v1 = some D' ∧ D'.Good ∧ D.Same D' ∧ ¬ D'.Alive v0 ∧ ¬ D'.Alive v1 ∧ D.size ≤ D'.size := by
  obtain ⟨hne, ht0, ht1, hf, hl0, hl1, _⟩ := hc
  obtain ⟨a0, z0⟩ := (type_eq_iff h.inv).1 ht0
  obtain ⟨a1, z1⟩ := (type_eq_iff h.inv).1 ht1
  obtain ⟨_, _, _, _, _, _, e, me, te⟩ := edge_type h a0 hf
  obtain ⟨D₁, h1, x1, p1, l1⟩ := ensurePauliVertex_ext h z0 (pivotLegs_of_check h a0 hl0)
  have z1' : (graph D₁).ty v1 = .z := by rw [x1.ty v1 a1, z1]
  have adj1 : D₁.adj v1 = D.adj v1 := x1.adj v1 hne.symm (by rw [z1]; simp)
  have L1 : D₁.PivotLegs v1 := by
    intro e he hb
    rw [adj1] at he
    rw [x1.ty _ (h.inv.nb v1 a1 e he).1] at hb ⊢
    exact pivotLegs_of_check h a1 hl1 e he hb
  obtain ⟨D₂, h2, x2, p2, l2⟩ := ensurePauliVertex_ext x1.good z1' L1
  have b0 := x1.alive v0 a0
  have z0' : (graph D₁).ty v0 = .z := by rw [x1.ty v0 a0, z0]
  have adj0 : D₂.adj v0 = D₁.adj v0 := x2.adj v0 hne (by rw [z0']; simp)
  have hck : D₂.checkPivotPauli v0 v1 := by
    refine checkPivotPauli_of x2.good (by rw [x2.ty v0 b0, z0']) (isPauli_of_vert x2.good.inv (x2.vert v0 hne b0) p1) p2
      ⟨e, ?_, te⟩ ?_ l2
    · rw [adj0]
      exact x1.keep e me (by rw [te, z1]; simp)
    · intro e he
      rw [adj0] at he
      rw [x2.ty _ (x1.good.inv.nb v0 b0 e he).1]
      exact l1 e he
  obtain ⟨D', h3, g3, s3, vs, sz⟩ := pivotPauli_sound x2.good hck
  refine ⟨D', ?_, g3, x1.same.trans (x2.same.trans s3), ?_, ?_, (x1.size.trans x2.size).trans sz.ge⟩
  · unfold pivot
    rw [h1]
    simp only [Option.bind_eq_bind, Option.bind_some]
    rw [h2, Option.bind_some, h3]
  · rw [← g3.inv.mem_verts, vs]
    intro hm
    exact Finset.notMem_erase v0 _ (Finset.mem_of_mem_erase hm)
  · rw [← g3.inv.mem_verts, vs]
    exact Finset.notMem_erase v1 _

theorem pivotGadget_sound {D : Diagram} (h : D.Good) {v0 v1 : ℕ} (hc : D.checkPivotGadget v0 v1) :
    ∃ D', D.pivotGadget v0 v1 = some D' ∧ D'.Good ∧ D.Same D' ∧ ¬ D'.Alive v0 ∧ ¬ D'.Alive v1 ∧ D.size ≤ D'.size := by
  obtain ⟨hx, hi0, hi1, hne, ht0, ht1, hf, hl0, hl1, _⟩ := hc
  obtain ⟨a0, z0⟩ := (type_eq_iff h.inv).1 ht0
  obtain ⟨a1, z1⟩ := (type_eq_iff h.inv).1 ht1
  obtain ⟨_, _, _, _, _, ⟨e', me', te'⟩, e, me, te⟩ := edge_type h a0 hf
  have legs : ∀ v, D.Alive v → D.isInterior v → D.PivotLegs v → ∀ e ∈ D.adj v, (graph D).ty e.tgt = .z ∧ e.type = .hadamard := by
    intro v hv hi hl e he
    exact hl e he (by rw [((type_eq_iff h.inv).1 (hi e he).2).2]; simp)
  have L0 := legs v0 a0 hi0 (pivotLegs_of_check h a0 hl0)
  have L1 := legs v1 a1 hi1 (pivotLegs_of_check h a1 hl1)
  obtain ⟨d0, hd0⟩ := id a0
  obtain ⟨d1, hd1⟩ := id a1
  have iff0 : D.isPauli v0 ↔ d0.phase.isPauli := by
    unfold isPauli
    rw [phase_of_vert h.inv hd0]; simp
  have iff1 : D.isPauli v1 ↔ d1.phase.isPauli := by
    unfold isPauli
    rw [phase_of_vert h.inv hd1]; simp
  have ext : ∀ v w D₂ n, v ≠ w → D.Alive v → D.Alive w → (graph D).ty v = .z → (graph D).ty w = .z → Ext v D D₂ → (graph D₂).ty n = .z →
      D₂.adj v = D.adj v ++ [⟨n, .hadamard⟩] →
      (∀ e ∈ D.adj v, (graph D).ty e.tgt = .z ∧ e.type = .hadamard) → (∀ e ∈ D.adj w, (graph D).ty e.tgt = .z ∧ e.type = .hadamard) →
      (∀ e ∈ D₂.adj v, (graph D₂).ty e.tgt = .z ∧ e.type = .hadamard) ∧ ∀ e ∈ D₂.adj w, (graph D₂).ty e.tgt = .z ∧ e.type = .hadamard := by
    intro v w D₂ n hvw av aw zv zw x tn hadj lv lw
    constructor
    · intro e he
      rw [hadj, List.mem_append] at he
      rcases he with he | he
      · rw [x.ty _ (h.inv.nb v av e he).1]
        exact lv e he
      · rw [List.mem_singleton] at he
        subst he
        exact ⟨tn, rfl⟩
    · intro e he
      rw [x.adj w hvw.symm (by rw [zw]; simp)] at he
      rw [x.ty _ (h.inv.nb w aw e he).1]
      exact lw e he
  have fin : ∀ D₁, D.pivotGadget v0 v1 = D₁.pivotPauli v0 v1 → D₁.Good → D.Same D₁ → D.size ≤ D₁.size → D₁.checkPivotPauli v0 v1 →
      ∃ D', D.pivotGadget v0 v1 = some D' ∧ D'.Good ∧ D.Same D' ∧ ¬ D'.Alive v0 ∧ ¬ D'.Alive v1 ∧ D.size ≤ D'.size := by
    intro D₁ heq g s hsz hck
    obtain ⟨D', h3, g3, s3, vs, sz⟩ := pivotPauli_sound g hck
    refine ⟨D', heq.trans h3, g3, s.trans s3, ?_, ?_, hsz.trans sz.ge⟩
    · rw [← g3.inv.mem_verts, vs]
      intro hm
      exact Finset.notMem_erase v0 _ (Finset.mem_of_mem_erase hm)
    · rw [← g3.inv.mem_verts, vs]
      exact Finset.notMem_erase v1 _
  by_cases hp : d0.phase.isPauli
  · obtain ⟨D₂, n, h1, x, nn, tn, ⟨d', hd', hd0'⟩, hadj⟩ := extractGadget_ext h z1
    obtain ⟨k1, k0⟩ := ext v1 v0 D₂ n hne.symm a1 a0 z1 z0 x tn hadj L1 L0
    refine fin D₂ ?_ x.good x.same x.size (checkPivotPauli_of x.good (by rw [x.ty v0 a0, z0]) ?_ ?_ ?_ k0 k1)
    · unfold pivotGadget
      rw [phase_of_vert h.inv hd0]
      simp only [Option.bind_eq_bind, Option.bind_some]
      rw [if_pos hp, h1, Option.bind_some]
    · exact isPauli_of_vert x.good.inv (x.vert v0 hne a0) (iff0.2 hp)
    · exact ⟨_, phase_of_vert x.good.inv hd', by rw [hd0']; exact Phase.isPauli_zero⟩
    · exact ⟨e, by rw [x.adj v0 hne (by rw [z0]; simp)]; exact me, te⟩
  · obtain ⟨D₂, n, h1, x, nn, tn, ⟨d', hd', hd0'⟩, hadj⟩ := extractGadget_ext h z0
    obtain ⟨k0, k1⟩ := ext v0 v1 D₂ n hne a0 a1 z0 z1 x tn hadj L0 L1
    have hp1 : D.isPauli v1 := by
      by_contra hc
      exact hp (iff0.1 (hx.2 hc))
    refine fin D₂ ?_ x.good x.same x.size (checkPivotPauli_of x.good (by rw [x.ty v0 a0, z0]) ?_ ?_ ?_ k0 k1)
    · unfold pivotGadget
      rw [phase_of_vert h.inv hd0]
      simp only [Option.bind_eq_bind, Option.bind_some]
      rw [if_neg hp, h1, Option.bind_some]
    · exact ⟨_, phase_of_vert x.good.inv hd', by rw [hd0']; exact Phase.isPauli_zero⟩
    · exact isPauli_of_vert x.good.inv (x.vert v1 hne.symm a1) hp1
    · exact ⟨e, by rw [hadj]; exact List.mem_append_left _ me, te⟩

end Diagram

end MQT.ZX
