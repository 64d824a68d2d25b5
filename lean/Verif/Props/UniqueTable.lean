import Verif.Memory.UniqueTable

set_option autoImplicit false

/-! C11: canonicity of the unique table. -/

namespace MQT.UT

set_option linter.unusedSectionVars false

open MQT.Mem

variable {E : Type} [DecidableEq E]

/-- What happens to a table and its memory manager. `looked p d q`: `lookup(p)` with contents `d`
returned `q`. -/
inductive Ev (E : Type) where
  | alloc (a : Addr) (d : Nat × E)
  | discard (a : Addr)
  | looked (p : Addr) (d : Nat × E) (q : Addr)
  | gc (R : List Addr) (n : Nat)
  | setRef
  | resize
  | clear
  | reset

/-- Specification: nodes allocated, filled and not yet passed to `lookup` or given back. -/
def pending (tr : List (Ev E)) : Finset Addr :=
  tr.foldl (fun s e => match e with
    | .alloc a _ => insert a s
    | .discard a => s.erase a
    | .looked p _ _ => s.erase p
    | .reset => ∅
    | _ => s) ∅

/-- Specification: nodes returned by `lookup` and not reclaimed since. -/
def present (tr : List (Ev E)) : Finset Addr :=
  tr.foldl (fun s e => match e with
    | .looked _ _ q => insert q s
    | .gc R _ => s \ R.toFinset
    | .clear => ∅
    | .reset => ∅
    | _ => s) ∅

/-- Executions: the client allocates nodes, writes their contents before `lookup` and never
afterwards, looks up nodes it has allocated or got from the table, changes reference counts
arbitrarily, collects garbage, resizes (not to fewer variables), clears. -/
inductive Exec (c : Cfg E) (n : Nat) (cont : Addr → Nat × E) (ref : Addr → Nat) : List (Ev E) → T E → Prop where
  | create : Exec c n cont ref [] (T.create c (MM.create n) cont ref 0)
  | alloc {tr s mm a d} : Exec c n cont ref tr s → s.mm.get c.grow = some (mm, a) →
      Exec c n cont ref (tr ++ [.alloc a d])
        { s with mm := mm, cont := fun x => if x = a then d else s.cont x }
  | discard {tr s a} : Exec c n cont ref tr s → a ∈ pending tr →
      Exec c n cont ref (tr ++ [.discard a]) { s with mm := s.mm.returnEntry a }
  | looked {tr s p s' q} : Exec c n cont ref tr s → p ∈ pending tr ∪ present tr → (s.cont p).1 < s.nVars →
      s.lookup c p = some (s', q) → Exec c n cont ref (tr ++ [.looked p (s.cont p) q]) s'
  | gc {tr s b s' R k} : Exec c n cont ref tr s → s.garbageCollect c b = some (s', R, k) →
      Exec c n cont ref (tr ++ [.gc R k]) s'
  | setRef {tr s ref'} : Exec c n cont ref tr s → Exec c n cont ref (tr ++ [.setRef]) { s with ref := ref' }
  | resize {tr s m} : Exec c n cont ref tr s → s.nVars ≤ m → Exec c n cont ref (tr ++ [.resize]) (s.resize c m)
  | clear {tr s} : Exec c n cont ref tr s → Exec c n cont ref (tr ++ [.clear]) (s.clear c)
  | reset {tr s b} : Exec c n cont ref tr s →
      Exec c n cont ref (tr ++ [.reset]) { s.clear c with mm := s.mm.reset b }

theorem pending_snoc (tr : List (Ev E)) (e : Ev E) : pending (tr ++ [e]) = match e with
    | .alloc a _ => insert a (pending tr)
    | .discard a => (pending tr).erase a
    | .looked p _ _ => (pending tr).erase p
    | .reset => ∅
    | _ => pending tr := by
  unfold pending; rw [List.foldl_append]; cases e <;> rfl

theorem present_snoc (tr : List (Ev E)) (e : Ev E) : present (tr ++ [e]) = match e with
    | .looked _ _ q => insert q (present tr)
    | .gc R _ => present tr \ R.toFinset
    | .clear => ∅
    | .reset => ∅
    | _ => present tr := by
  unfold present; rw [List.foldl_append]; cases e <;> rfl

/-- No event of `t` reclaims `a`. -/
def Keeps (a : Addr) (t : List (Ev E)) : Prop := ∀ e ∈ t, match e with
  | .gc R _ => a ∉ R
  | .clear => False
  | .reset => False
  | _ => True

theorem Keeps.append {a : Addr} {t t' : List (Ev E)} (h : Keeps a (t ++ t')) : Keeps a t ∧ Keeps a t' :=
  ⟨fun e he => h e (by simp [he]), fun e he => h e (by simp [he])⟩

/-- Ghost invariant along executions. -/
structure G (c : Cfg E) (tr : List (Ev E)) (s : T E) (live : Finset Addr) (avail : List Addr)
    (L : Nat → Nat → List Addr) : Prop where
  inv : Inv c s live avail L
  pend : ∀ a ∈ pending tr, a ∈ live ∧ ¬ Stored L a
  pres : ∀ a, a ∈ present tr ↔ Stored L a
  keep : ∀ t1 p d a t2, tr = t1 ++ .looked p d a :: t2 → Keeps a t2 → a ∈ present tr ∧ s.cont a = d
  same : ∀ t1 p d a t2 p' b t3, tr = t1 ++ .looked p d a :: (t2 ++ .looked p' d b :: t3) → Keeps a t2 →
    a = b

theorem snoc_split' {α : Type} {tr t1 t2 : List α} {x e : α} (h : tr ++ [e] = t1 ++ x :: t2) :
    (∃ t2', t2 = t2' ++ [e] ∧ tr = t1 ++ x :: t2') ∨ (t2 = [] ∧ x = e ∧ t1 = tr) := by
  rcases List.eq_nil_or_concat t2 with h2 | ⟨t2', y, h2⟩
  · subst h2
    obtain ⟨h3, h4⟩ := List.append_inj' h rfl
    exact Or.inr ⟨rfl, by simpa using h4.symm, h3.symm⟩
  · rw [List.concat_eq_append] at h2
    subst h2
    have h' : tr ++ [e] = (t1 ++ x :: t2') ++ [y] := by simpa using h
    obtain ⟨h3, h4⟩ := List.append_inj' h' rfl
    have : e = y := by simpa using h4
    subst this
    exact Or.inl ⟨t2', rfl, h3⟩

/-- Extension by an event that is not a lookup. -/
theorem keep_snoc {tr : List (Ev E)} {s s' : T E} {e : Ev E}
    (hk : ∀ t1 p d a t2, tr = t1 ++ .looked p d a :: t2 → Keeps a t2 → a ∈ present tr ∧ s.cont a = d)
    (hne : ∀ p d q, e ≠ .looked p d q)
    (hs : ∀ a, a ∈ present tr → Keeps a [e] → a ∈ present (tr ++ [e]) ∧ s'.cont a = s.cont a) :
    ∀ t1 p d a t2, tr ++ [e] = t1 ++ .looked p d a :: t2 → Keeps a t2 →
      a ∈ present (tr ++ [e]) ∧ s'.cont a = d := by
  intro t1 p d a t2 he hkeep
  rcases snoc_split' he with ⟨t2', rfl, h⟩ | ⟨_, h, _⟩
  · obtain ⟨h1, h2⟩ := hk t1 p d a t2' h hkeep.append.1
    obtain ⟨h3, h4⟩ := hs a h1 hkeep.append.2
    exact ⟨h3, h4.trans h2⟩
  · exact absurd h.symm (hne _ _ _)

theorem same_snoc {tr : List (Ev E)} {e : Ev E}
    (hk : ∀ t1 p d a t2 p' b t3, tr = t1 ++ .looked p d a :: (t2 ++ .looked p' d b :: t3) → Keeps a t2 →
      a = b)
    (hne : ∀ p d q, e ≠ .looked p d q) :
    ∀ t1 p d a t2 p' b t3, tr ++ [e] = t1 ++ .looked p d a :: (t2 ++ .looked p' d b :: t3) → Keeps a t2 →
      a = b := by
  intro t1 p d a t2 p' b t3 he hkeep
  have he' : tr ++ [e] = (t1 ++ .looked p d a :: t2) ++ .looked p' d b :: t3 := by simpa using he
  rcases snoc_split' he' with ⟨t3', rfl, h⟩ | ⟨_, h, _⟩
  · exact hk t1 p d a t2 p' b t3' (by simpa using h) hkeep
  · exact absurd h.symm (hne _ _ _)

theorem Exec.ghost {c : Cfg E} (hb : 0 < c.nBuckets) (hg : ∀ n, 0 < n → 0 < c.grow n) {n : Nat}
    (hn : 0 < n) {cont : Addr → Nat × E} {ref : Addr → Nat} {tr : List (Ev E)} {s : T E}
    (h : Exec c n cont ref tr s) : ∃ live avail L, G c tr s live avail L := by
  induction h with
  | create =>
    refine ⟨∅, [], fun _ _ => [], ⟨?_, by simp [pending], ?_, ?_, ?_⟩⟩
    · constructor
      · exact Mem.Inv.create hn
      · intro v hv; exact absurd hv (Nat.not_lt_zero v)
      · rintro v k ⟨hv, _⟩; exact absurd hv (Nat.not_lt_zero v)
      · simp
      · simp
      · simp
      · simp
      · intro v hv; exact absurd hv (Nat.not_lt_zero v)
    · intro a; simp [present, Stored]
    · intro t1 p d a t2 he; simp at he
    · intro t1 p d a t2 p' b t3 he; simp at he
  | @alloc tr s mm a d _ e ih =>
    obtain ⟨live, avail, L, g⟩ := ih
    obtain ⟨mm', a', l', e', hna, inv', _, _⟩ := g.inv.mm.get hg
    rw [e] at e'
    obtain ⟨rfl, rfl⟩ : mm = mm' ∧ a = a' := by simpa using e'
    have hns : ¬ Stored L a := by rintro ⟨v, k, hx⟩; exact hna (g.inv.live v k a hx)
    -- `get` leaves the chains alone
    have hnext : mm.next = s.mm.next := by
      unfold MM.get at e
      cases hav : s.mm.available with
      | some x =>
        rw [hav] at e
        simp only [Option.some.injEq, Prod.mk.injEq] at e
        rw [← e.1]; rfl
      | none =>
        rw [hav] at e
        simp only [MM.getEntryFromChunk] at e
        split at e <;> split at e
        all_goals first
          | (simp only [Option.some.injEq, Prod.mk.injEq] at e; rw [← e.1]; rfl)
          | (cases e)
    have hcx : ∀ x, Stored L x → x ≠ a := by rintro x hx rfl; exact hns hx
    refine ⟨insert a live, l', L, ⟨?_, ?_, ?_, ?_, ?_⟩⟩
    · constructor
      · exact inv'
      · exact g.inv.rows
      · intro v k hc; show Chain mm.next _ _; rw [hnext]; exact g.inv.chain v k hc
      · exact g.inv.nodup
      · intro v k x hx; exact Finset.mem_insert_of_mem (g.inv.live v k x hx)
      · intro v k x hx
        have := hcx x ⟨v, k, hx⟩
        simp only [this, if_false]; exact g.inv.home v k x hx
      · intro v k x hx y hy hxy
        have h1 := hcx x ⟨v, k, hx⟩
        have h2 := hcx y ⟨v, k, hy⟩
        simp only [h1, h2, if_false] at hxy
        exact g.inv.uniq v k x hx y hy hxy
      · exact g.inv.cnt
    · intro x hx
      rw [pending_snoc] at hx
      rcases Finset.mem_insert.mp hx with rfl | hx
      · exact ⟨Finset.mem_insert_self _ _, hns⟩
      · exact ⟨Finset.mem_insert_of_mem (g.pend x hx).1, (g.pend x hx).2⟩
    · intro x; rw [present_snoc]; exact g.pres x
    · refine keep_snoc g.keep (by simp) ?_
      intro x hx _
      refine ⟨by rw [present_snoc]; exact hx, ?_⟩
      have := hcx x ((g.pres x).mp hx)
      simp [this]
    · exact same_snoc g.same (by simp)
  | @discard tr s a _ ha ih =>
    obtain ⟨live, avail, L, g⟩ := ih
    obtain ⟨hl, hns⟩ := g.pend a ha
    refine ⟨live.erase a, a :: avail, L, ⟨?_, ?_, ?_, ?_, ?_⟩⟩
    · exact
      { g.inv with
        mm := g.inv.mm.returnEntry hl
        chain := by
          intro v k hc
          refine (g.inv.chain v k hc).congr ?_
          intro x hx
          have : x ≠ a := by rintro rfl; exact hns ⟨v, k, hx⟩
          simp [MM.returnEntry, MM.trackReturnedEntry, this]
        live := by
          intro v k x hx
          refine Finset.mem_erase.mpr ⟨?_, g.inv.live v k x hx⟩
          rintro rfl; exact hns ⟨v, k, hx⟩ }
    · intro x hx
      rw [pending_snoc] at hx
      obtain ⟨h1, h2⟩ := Finset.mem_erase.mp hx
      exact ⟨Finset.mem_erase.mpr ⟨h1, (g.pend x h2).1⟩, (g.pend x h2).2⟩
    · intro x; rw [present_snoc]; exact g.pres x
    · refine keep_snoc g.keep (by simp) ?_
      intro x hx _
      exact ⟨by rw [present_snoc]; exact hx, rfl⟩
    · exact same_snoc g.same (by simp)
  | @looked tr s p s' q _ hp hv e ih =>
    obtain ⟨live, avail, L, g⟩ := ih
    have hpl : p ∈ live := by
      rcases Finset.mem_union.mp hp with hp | hp
      · exact (g.pend p hp).1
      · obtain ⟨v, k, hx⟩ := (g.pres p).mp hp
        exact g.inv.live v k p hx
    obtain ⟨s2, q2, live2, avail2, L2, e2, inv2, hc2, _, _, hq2, hst2, hl2⟩ := lookup_spec hb g.inv hpl hv
    rw [e] at e2
    obtain ⟨rfl, rfl⟩ : s' = s2 ∧ q = q2 := by simpa using e2
    have hpres : ∀ a, a ∈ present (tr ++ [.looked p (s.cont p) q]) ↔ Stored L2 a := by
      intro a; rw [present_snoc, hst2, ← g.pres]; simp only [Finset.mem_insert]; tauto
    have hkeep : ∀ t1 p' d a t2, tr ++ [.looked p (s.cont p) q] = t1 ++ .looked p' d a :: t2 → Keeps a t2 →
        a ∈ present (tr ++ [.looked p (s.cont p) q]) ∧ s'.cont a = d := by
      intro t1 p' d a t2 he hk
      rcases snoc_split' he with ⟨t2', rfl, h⟩ | ⟨_, h, _⟩
      · obtain ⟨h1, h2⟩ := g.keep t1 p' d a t2' h hk.append.1
        refine ⟨by rw [present_snoc]; exact Finset.mem_insert_of_mem h1, ?_⟩
        rw [hc2]; exact h2
      · obtain ⟨rfl, rfl, rfl⟩ : p' = p ∧ d = s.cont p ∧ a = q := by simpa using h
        exact ⟨by rw [present_snoc]; simp, hq2⟩
    refine ⟨live2, avail2, L2, ⟨inv2, ?_, hpres, hkeep, ?_⟩⟩
    · intro x hx
      rw [pending_snoc] at hx
      obtain ⟨h1, h2⟩ := Finset.mem_erase.mp hx
      obtain ⟨h3, h4⟩ := g.pend x h2
      refine ⟨(hl2 x).mpr ⟨h3, fun hh => absurd hh h1⟩, ?_⟩
      rw [hst2]
      rintro (h5 | rfl)
      · exact h4 h5
      · -- `q` is either stored or `p`
        by_cases hsq : Stored L x
        · exact h4 hsq
        · -- `x` is live in the old state, not stored, and different from `p`, yet returned
          rcases (hst2 x).mpr (Or.inr rfl) with ⟨v, k, hx'⟩
          have hxne : x ≠ p := h1
          -- lookup returns a stored node or `p`
          have : Stored L x ∨ x = p := by
            clear hl2
            unfold T.lookup at e
            simp only at e
            split at e
            · split at e
              · cases e
              · rename_i q' hs'
                have hq' : q' = x := by
                  split at e
                  · simpa using (Prod.mk.inj (Option.some.inj e)).2
                  · simpa using (Prod.mk.inj (Option.some.inj e)).2
                subst hq'
                have hcell : s.cell (s.cont p).1 (key c (s.cont p).2) := by
                  refine ⟨hv, ?_⟩
                  rw [g.inv.rows _ hv]; exact key_lt c hb _
                have hlen := g.inv.length_le (s.cont p).1 (key c (s.cont p).2)
                rcases search_spec (s := s) (e := (s.cont p).2) (f := s.mm.numUsed + 1)
                  (g.inv.chain _ _ hcell) (by omega) with ⟨q'', hq'', _, hs''⟩ | ⟨_, hs''⟩
                · rw [hs''] at hs'
                  have : q'' = q' := by simpa using hs'
                  subst this
                  exact Or.inl ⟨_, _, hq''⟩
                · rw [hs''] at hs'; simp at hs'
              · exact Or.inr (by simpa using (Prod.mk.inj (Option.some.inj e)).2.symm)
            · cases e
          rcases this with h6 | h6
          · exact hsq h6
          · exact h1 h6
    · intro t1 p1 d a t2 p2 b t3 he hk
      have he' : tr ++ [.looked p (s.cont p) q] = (t1 ++ .looked p1 d a :: t2) ++ .looked p2 d b :: t3 := by
        simpa using he
      rcases snoc_split' he' with ⟨t3', rfl, h⟩ | ⟨rfl, h, h'⟩
      · exact g.same t1 p1 d a t2 p2 b t3' (by simpa using h) hk
      · obtain ⟨rfl, rfl, rfl⟩ : p2 = p ∧ d = s.cont p ∧ b = q := by simpa using h
        obtain ⟨h1, h2⟩ := g.keep t1 p1 _ a t2 h'.symm hk
        have h3 : Stored L2 a := (hst2 a).mpr (Or.inl ((g.pres a).mp h1))
        have h4 : Stored L2 b := (hst2 b).mpr (Or.inr rfl)
        obtain ⟨v, k, h3⟩ := h3
        obtain ⟨v', k', h4⟩ := h4
        have e5 : s'.cont a = s'.cont b := by rw [hq2, hc2, h2]
        obtain ⟨_, r1, r2⟩ := inv2.home v k a h3
        obtain ⟨_, r3, r4⟩ := inv2.home v' k' b h4
        have ev : v' = v := by rw [← r1, ← r3, e5]
        have ek : k' = k := by rw [← r2, ← r4, e5]
        subst ev ek
        exact inv2.uniq _ _ a h3 b h4 (by rw [e5])
  | @gc tr s b s' R k _ e ih =>
    obtain ⟨live, avail, L, g⟩ := ih
    obtain ⟨s2, R2, n2, live2, avail2, L2, e2, inv2, hc, hr, hnv, hl, hst, hR, _, _, _⟩ :=
      garbageCollect_spec g.inv b
    rw [e] at e2
    obtain ⟨rfl, rfl, rfl⟩ : s' = s2 ∧ R = R2 ∧ k = n2 := by simpa using e2
    have hpres : ∀ a, a ∈ present (tr ++ [.gc R k]) ↔ Stored L2 a := by
      intro a; rw [present_snoc, hst, ← g.pres]; simp
    refine ⟨live2, avail2, L2, ⟨inv2, ?_, hpres, ?_, ?_⟩⟩
    · intro x hx
      rw [pending_snoc] at hx
      obtain ⟨h1, h2⟩ := g.pend x hx
      refine ⟨(hl x).mpr ⟨h1, fun hh => h2 (hR x hh).1⟩, ?_⟩
      rw [hst]; exact fun hh => h2 hh.1
    · refine keep_snoc g.keep (by simp) ?_
      intro x hx hk
      have hxR : x ∉ R := hk (.gc R k) (by simp)
      exact ⟨by rw [present_snoc]; simp [hx, hxR], by rw [hc]⟩
    · exact same_snoc g.same (by simp)
  | @setRef tr s ref' _ ih =>
    obtain ⟨live, avail, L, g⟩ := ih
    refine ⟨live, avail, L, ⟨{ g.inv with }, ?_, ?_, ?_, ?_⟩⟩
    · intro x hx; rw [pending_snoc] at hx; exact g.pend x hx
    · intro x; rw [present_snoc]; exact g.pres x
    · refine keep_snoc g.keep (by simp) ?_
      intro x hx _; exact ⟨by rw [present_snoc]; exact hx, rfl⟩
    · exact same_snoc g.same (by simp)
  | @resize tr s m _ hm ih =>
    obtain ⟨live, avail, L, g⟩ := ih
    refine ⟨live, avail, L, ⟨?_, ?_, ?_, ?_, ?_⟩⟩
    · constructor
      · exact g.inv.mm
      · intro v _
        by_cases hv : v < s.nVars
        · simp [T.resize, hv, g.inv.rows v hv]
        · simp [T.resize, hv]
      · intro v k hc
        by_cases hv : v < s.nVars
        · have : s.cell v k := by
            refine ⟨hv, ?_⟩
            have := hc.2
            simpa [T.resize, hv] using this
          simp only [T.resize, hv, if_true]
          exact g.inv.chain v k this
        · have : L v k = [] := g.inv.notStored_empty (fun hh => hv hh.1)
          rw [this]; simp [T.resize, hv, Chain]
      · exact g.inv.nodup
      · exact g.inv.live
      · intro v k x hx
        obtain ⟨h1, h2⟩ := g.inv.home v k x hx
        refine ⟨⟨lt_of_lt_of_le h1.1 hm, ?_⟩, h2⟩
        have := h1.2
        simp [T.resize, h1.1, this]
      · exact g.inv.uniq
      · intro v _
        by_cases hv : v < s.nVars
        · simp only [T.resize, hv, if_true]; exact g.inv.cnt v hv
        · simp only [T.resize, hv, if_false]
          symm
          apply Finset.sum_eq_zero
          intro k _
          rw [g.inv.notStored_empty (fun hh => hv hh.1)]; rfl
    · intro x hx; rw [pending_snoc] at hx; exact g.pend x hx
    · intro x; rw [present_snoc]; exact g.pres x
    · refine keep_snoc g.keep (by simp) ?_
      intro x hx _; exact ⟨by rw [present_snoc]; exact hx, rfl⟩
    · exact same_snoc g.same (by simp)
  | @clear tr s _ ih =>
    obtain ⟨live, avail, L, g⟩ := ih
    refine ⟨live, avail, fun _ _ => [], ⟨?_, ?_, ?_, ?_, ?_⟩⟩
    · exact ⟨g.inv.mm, g.inv.rows, fun _ _ _ => rfl, by simp, by simp, by simp, by simp,
        by intro v _; simp [T.clear]⟩
    · intro x hx; rw [pending_snoc] at hx; exact ⟨(g.pend x hx).1, by simp [Stored]⟩
    · intro x; rw [present_snoc]; simp [Stored]
    · refine keep_snoc g.keep (by simp) ?_
      intro x hx hk; exact absurd (hk .clear (by simp)) (by simp)
    · exact same_snoc g.same (by simp)
  | @reset tr s b _ ih =>
    obtain ⟨live, avail, L, g⟩ := ih
    refine ⟨∅, [], fun _ _ => [], ⟨?_, ?_, ?_, ?_, ?_⟩⟩
    · exact ⟨g.inv.mm.reset b, g.inv.rows, fun _ _ _ => rfl, by simp, by simp, by simp, by simp,
        by intro v _; simp [T.clear]⟩
    · intro x hx; rw [pending_snoc] at hx; simp at hx
    · intro x; rw [present_snoc]; simp [Stored]
    · refine keep_snoc g.keep (by simp) ?_
      intro x hx hk; exact absurd (hk .reset (by simp)) (by simp)
    · exact same_snoc g.same (by simp)

/-- **C11.** For every hash function, number of buckets, garbage-collection limit and execution:
1. `lookup` never fails on a node of an existing level and returns a node with the same contents;
2. no two nodes in the table have the same contents;
3. two lookups of the same contents return the same node unless it was reclaimed in between;
4. the entry count is the number of nodes in the table.
Missing from C11: tables built by the constructor with `nVars > 0`, which have no buckets (`c11_constructor_without_buckets`). -/
theorem c11_uniqueTable_partial {c : Cfg E} (hb : 0 < c.nBuckets) (hg : ∀ n, 0 < n → 0 < c.grow n) {n : Nat}
    (hn : 0 < n) {cont : Addr → Nat × E} {ref : Addr → Nat} {tr : List (Ev E)} {s : T E}
    (h : Exec c n cont ref tr s) :
    (∀ p ∈ pending tr ∪ present tr, (s.cont p).1 < s.nVars →
      ∃ s' q, s.lookup c p = some (s', q) ∧ s'.cont q = s.cont p) ∧
    (∀ a ∈ present tr, ∀ b ∈ present tr, s.cont a = s.cont b → a = b) ∧
    (∀ t1 p d a t2 p' b t3, tr = t1 ++ .looked p d a :: (t2 ++ .looked p' d b :: t3) → Keeps a t2 → a = b) ∧
    s.getNumEntries = (present tr).card := by
  obtain ⟨live, avail, L, g⟩ := h.ghost hb hg hn
  refine ⟨?_, ?_, g.same, g.inv.numEntries_card _ g.pres⟩
  · intro p hp hv
    have hpl : p ∈ live := by
      rcases Finset.mem_union.mp hp with hp | hp
      · exact (g.pend p hp).1
      · obtain ⟨v, k, hx⟩ := (g.pres p).mp hp
        exact g.inv.live v k p hx
    obtain ⟨s2, q2, live2, avail2, L2, e2, inv2, hc2, _, _, hq2, _, _⟩ := lookup_spec hb g.inv hpl hv
    exact ⟨s2, q2, e2, hq2⟩
  · intro a ha b hb' hab
    obtain ⟨v, k, h3⟩ := (g.pres a).mp ha
    obtain ⟨v', k', h4⟩ := (g.pres b).mp hb'
    obtain ⟨_, r1, r2⟩ := g.inv.home v k a h3
    obtain ⟨_, r3, r4⟩ := g.inv.home v' k' b h4
    have ev : v' = v := by rw [← r1, ← r3, hab]
    have ek : k' = k := by rw [← r2, ← r4, hab]
    subst ev ek
    exact g.inv.uniq _ _ a h3 b h4 (by rw [hab])

/-- **C11, garbage collection.** `garbageCollect` never fails; it reclaims only nodes of the table
with reference count 0, all of them if forced or if the limit is reached, gives each back exactly
once, and returns their number. -/
theorem c11_garbageCollect {c : Cfg E} (hb : 0 < c.nBuckets) (hg : ∀ n, 0 < n → 0 < c.grow n) {n : Nat}
    (hn : 0 < n) {cont : Addr → Nat × E} {ref : Addr → Nat} {tr : List (Ev E)} {s : T E}
    (h : Exec c n cont ref tr s) (force : Bool) :
    ∃ s' R k, s.garbageCollect c force = some (s', R, k) ∧ R.Nodup ∧ k = R.length ∧
      (∀ x ∈ R, x ∈ present tr ∧ s.ref x = 0) ∧
      ((force = true ∨ s.gcLimit ≤ s.getNumEntries) → ∀ x ∈ present tr, s.ref x = 0 → x ∈ R) ∧
      (∀ x, s'.cont x = s.cont x ∧ s'.ref x = s.ref x) := by
  obtain ⟨live, avail, L, g⟩ := h.ghost hb hg hn
  obtain ⟨s2, R2, n2, live2, avail2, L2, e2, inv2, hc, hr, hnv, hl, hst, hR, hnd, hlen, hall⟩ :=
    garbageCollect_spec g.inv force
  refine ⟨s2, R2, n2, e2, hnd, hlen, ?_, ?_, ?_⟩
  · intro x hx; exact ⟨(g.pres x).mpr (hR x hx).1, (hR x hx).2⟩
  · intro hf x hx hz; exact hall hf x ((g.pres x).mp hx) hz
  · intro x; rw [hc, hr]; exact ⟨rfl, rfl⟩

/-- A concrete execution with two buckets that collide, a duplicate lookup and a collection. -/
example : ∃ s, Exec (E := Nat) ⟨2, 10, fun _ => 7, fun n => 2 * n⟩ 1 (fun _ => (0, 0)) (fun _ => 0)
    [.resize, .alloc (0, 0) (0, 5), .looked (0, 0) (0, 5) (0, 0), .alloc (1, 0) (0, 6),
     .looked (1, 0) (0, 6) (1, 0), .alloc (1, 1) (0, 5), .looked (1, 1) (0, 5) (0, 0),
     .gc [(1, 0), (0, 0)] 2] s :=
  ⟨_, .gc (b := true) (.looked (.alloc (.looked (.alloc (.looked (.alloc (.resize (m := 1) .create
    (by decide)) rfl) (by decide) (by decide) rfl) rfl) (by decide) (by decide) rfl) rfl)
    (by decide) (by decide) rfl) rfl⟩

/-- **Disagreement**: a table constructed with `nVars > 0` has no buckets, so `lookup` accesses
`tables[v][key]` out of range (UniqueTable.cpp:24-32). -/
theorem c11_constructor_without_buckets :
    (T.create (⟨2, 10, fun _ => 7, fun n => 2 * n⟩ : Cfg Nat) (MM.create 1) (fun _ => (0, 0))
      (fun _ => 0) 1).lookup ⟨2, 10, fun _ => 7, fun n => 2 * n⟩ (0, 0) = none := by rfl

end MQT.UT
