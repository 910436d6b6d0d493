import Verif.DAG.Lemmas
namespace Sparta.DAG
open Relation

/-- the predecessor argument: a finite non-empty set in which everything has a predecessor has a cycle -/
theorem cycle_of_pred {R : Nat → Nat → Prop} : ∀ (n : Nat) (S : List Nat), S.length ≤ n → S ≠ [] →
    (∀ w ∈ S, ∃ v ∈ S, R v w) → ∃ x, TransGen R x x := by
  classical
  intro n
  induction n with
  | zero =>
    intro S h1 h2
    exact absurd (List.length_eq_zero_iff.1 (Nat.le_zero.1 h1)) h2
  | succ n ih =>
    intro S h1 h2 h3
    cases S with
    | nil => exact absurd rfl h2
    | cons w0 S =>
      by_cases hc : TransGen R w0 w0
      · exact ⟨w0, hc⟩
      · have hlen : ((w0 :: S).filter (fun x => decide (TransGen R x w0))).length ≤ n := by
          rw [List.filter_cons_of_neg (by simpa using hc)]
          have := List.length_filter_le (fun x => decide (TransGen R x w0)) S
          simp only [List.length_cons] at h1
          omega
        apply ih _ hlen
        · obtain ⟨v, hv, hr⟩ := h3 w0 List.mem_cons_self
          intro he
          have : v ∈ (w0 :: S).filter (fun x => decide (TransGen R x w0)) :=
            List.mem_filter.2 ⟨hv, by simpa using TransGen.single hr⟩
          rw [he] at this; cases this
        · intro w hw
          obtain ⟨hw1, hw2⟩ := List.mem_filter.1 hw
          simp only [decide_eq_true_eq] at hw2
          obtain ⟨v, hv, hr⟩ := h3 w hw1
          exact ⟨v, List.mem_filter.2 ⟨hv, by simpa using (TransGen.single hr).trans hw2⟩, hr⟩

/-- number of edges into `w` in a list of edges -/
def into (P : List (Nat × Nat)) (w : Nat) : Nat := (P.filter (fun e => e.2 = w)).length

theorem into_append (P Q : List (Nat × Nat)) (w : Nat) : into (P ++ Q) w = into P w + into Q w := by
  simp [into]

/-- invariant of the sorting loop: `D` vertices taken off the list, `P` edges processed -/
structure Inv (verts : List Nat) (E : List (Nat × Nat)) (gid0 : Nat → Nat) (s : S) (D : List Nat)
    (P : List (Nat × Nat)) : Prop where
  nodup : (D ++ s.zlist).Nodup
  sub : ∀ v, v ∈ D ++ s.zlist → v ∈ verts
  count : ∀ w, s.inb w + into P w = into E w
  zero : ∀ w ∈ verts, (w ∈ D ++ s.zlist ↔ s.inb w = 0)
  nodupP : P.Nodup
  subP : ∀ e ∈ P, e ∈ E
  src : ∀ v w, (v, w) ∈ P → v ∈ D
  pos : ∀ w ∈ verts, 1 ≤ s.gid w
  lower : ∀ v w, (v, w) ∈ P → s.gid v + 1 ≤ s.gid w
  tight : ∀ w ∈ verts, s.gid w = 1 ∨ ∃ v, (v, w) ∈ P ∧ s.gid w = s.gid v + 1
  vcount : s.vcount + D.length = verts.length
  other : ∀ w, w ∉ verts → s.gid w = gid0 w

theorem edges_spec {verts : List Nat} {E : List (Nat × Nat)} {gid0 : Nat → Nat}
    (ends : ∀ v w, (v, w) ∈ E → v ∈ verts ∧ w ∈ verts)
    (v : Nat) : ∀ (ws : List Nat) (s : S) (D : List Nat) (P : List (Nat × Nat)),
    Inv verts E gid0 s D P → v ∈ D → (∀ w ∈ ws, (v, w) ∈ E ∧ (v, w) ∉ P) → ws.Nodup →
    ∃ s' P', S.edges (s.gid v) s ws = some s' ∧ Inv verts E gid0 s' D P' ∧
      (∀ e, e ∈ P' ↔ e ∈ P ∨ ∃ w ∈ ws, e = (v, w)) ∧ s'.numGroups = s.numGroups ∧
      (∀ x ∈ D, s'.gid x = s.gid x) := by
  intro ws
  induction ws with
  | nil => intro s D P h _ _ _; exact ⟨s, P, rfl, h, by simp, rfl, fun _ _ => rfl⟩
  | cons w ws ih =>
    intro s D P h hv hw hnd
    obtain ⟨hwE, hwP⟩ := hw w List.mem_cons_self
    have hwv := (ends v w hwE).2
    have hlt : into P w < into E w := by
      unfold into
      have hsub : ((v, w) :: P.filter (fun e => e.2 = w)).Subset (E.filter (fun e => e.2 = w)) := by
        intro e he
        rcases List.mem_cons.1 he with rfl | he
        · simp [hwE]
        · have := List.mem_filter.1 he
          exact List.mem_filter.2 ⟨h.subP e this.1, this.2⟩
      have hn : ((v, w) :: P.filter (fun e => e.2 = w)).Nodup :=
        List.nodup_cons.2 ⟨fun hh => hwP (List.mem_filter.1 hh).1, h.nodupP.filter _⟩
      have := hn.length_le_of_subset hsub
      simp only [List.length_cons] at this
      omega
    have hpos : s.inb w > 0 := by have := h.count w; omega
    have hnot : w ∉ D ++ s.zlist := by
      rw [h.zero w hwv]; omega
    have hnotD : w ∉ D := fun hh => hnot (List.mem_append_left _ hh)
    unfold S.edges
    rw [if_pos hpos]
    simp only
    generalize hs1 : (if s.gid w ≤ s.gid v then { s with gid := upd s.gid w (s.gid v + 1) } else s) = s1
    have e1 : s1.inb = s.inb ∧ s1.zlist = s.zlist ∧ s1.vcount = s.vcount ∧ s1.numGroups = s.numGroups := by
      subst hs1; split <;> exact ⟨rfl, rfl, rfl, rfl⟩
    have g1 : ∀ x, x ≠ w → s1.gid x = s.gid x := by
      intro x hx; subst hs1; split
      · exact upd_other _ _ hx
      · rfl
    have g2 : s1.gid w = if s.gid w ≤ s.gid v then s.gid v + 1 else s.gid w := by
      subst hs1
      by_cases hc : s.gid w ≤ s.gid v <;> simp [hc]
    generalize hs2 : (if s.inb w - 1 = 0 then { s1 with zlist := s1.zlist ++ [w] } else s1) = s2
    have e2 : s2.gid = s1.gid ∧ s2.vcount = s1.vcount ∧ s2.numGroups = s1.numGroups ∧
        s2.zlist = if s.inb w - 1 = 0 then s.zlist ++ [w] else s.zlist := by
      subst hs2; split <;> simp [e1]
    have hinv : Inv verts E gid0 { s2 with inb := upd s2.inb w (s.inb w - 1) } D (P ++ [(v, w)]) := by
      have hib : s2.inb = s.inb := by subst hs2; split <;> exact e1.1
      have hz : ∀ x, x ∈ D ++ s2.zlist ↔ x ∈ D ++ s.zlist ∨ (x = w ∧ s.inb w - 1 = 0) := by
        intro x; rw [e2.2.2.2]
        by_cases hc : s.inb w - 1 = 0
        · simp only [hc, if_true, List.mem_append, List.mem_singleton]; constructor
          · rintro (h | h | h)
            · exact Or.inl (Or.inl h)
            · exact Or.inl (Or.inr h)
            · exact Or.inr ⟨h, trivial⟩
          · rintro ((h | h) | h)
            · exact Or.inl h
            · exact Or.inr (Or.inl h)
            · exact Or.inr (Or.inr h.1)
        · simp [hc]
      constructor
      · show (D ++ s2.zlist).Nodup
        rw [e2.2.2.2]
        split
        · rw [← List.append_assoc, List.nodup_append]
          refine ⟨h.nodup, by simp, ?_⟩
          intro a ha b hb e
          simp only [List.mem_singleton] at hb
          subst hb; subst e; exact hnot ha
        · exact h.nodup
      · intro x hx
        rcases (hz x).1 hx with hx | ⟨rfl, -⟩
        · exact h.sub x hx
        · exact hwv
      · intro x
        show upd s2.inb w (s.inb w - 1) x + into (P ++ [(v, w)]) x = into E x
        rw [into_append, hib]
        by_cases e : x = w
        · subst e
          have := h.count x
          simp only [upd_same]
          have : into [(v, x)] x = 1 := by simp [into]
          omega
        · rw [upd_other _ _ e]
          have h1 : into [(v, w)] x = 0 := by
            simp only [into]
            rw [List.filter_cons_of_neg (by simp; exact fun hh => e hh.symm)]
            rfl
          have := h.count x
          omega
      · intro x hx
        show x ∈ D ++ s2.zlist ↔ upd s2.inb w (s.inb w - 1) x = 0
        rw [hz, hib]
        by_cases e : x = w
        · subst e; simp only [upd_same]; constructor
          · rintro (hh | hh)
            · exact absurd hh hnot
            · exact hh.2
          · intro hh; exact Or.inr ⟨by trivial, hh⟩
        · rw [upd_other _ _ e, h.zero x hx]
          simp [e]
      · rw [List.nodup_append]
        refine ⟨h.nodupP, by simp, ?_⟩
        intro a ha b hb e
        simp only [List.mem_singleton] at hb
        subst hb; subst e; exact hwP ha
      · intro e he
        rcases List.mem_append.1 he with he | he
        · exact h.subP e he
        · simp only [List.mem_singleton] at he; subst he; exact hwE
      · intro a b hab
        rcases List.mem_append.1 hab with hab | hab
        · exact h.src a b hab
        · simp only [List.mem_singleton, Prod.mk.injEq] at hab; rw [hab.1]; exact hv
      · intro x hx
        show 1 ≤ s2.gid x
        rw [e2.1]
        by_cases e : x = w
        · subst e; rw [g2]; split
          · omega
          · exact h.pos _ hx
        · rw [g1 x e]; exact h.pos x hx
      · intro a b hab
        show s2.gid a + 1 ≤ s2.gid b
        rw [e2.1]
        rcases List.mem_append.1 hab with hab | hab
        · have haD := h.src a b hab
          have hane : a ≠ w := fun e => hnotD (e ▸ haD)
          rw [g1 a hane]
          have := h.lower a b hab
          by_cases e : b = w
          · subst e; rw [g2]; split <;> omega
          · rw [g1 b e]; exact this
        · simp only [List.mem_singleton, Prod.mk.injEq] at hab
          have hane : v ≠ w := fun e => hnotD (e ▸ hv)
          rw [hab.1, hab.2, g1 v hane, g2]; split <;> omega
      · intro x hx
        show s2.gid x = 1 ∨ ∃ a, (a, x) ∈ P ++ [(v, w)] ∧ s2.gid x = s2.gid a + 1
        rw [e2.1]
        have hane : v ≠ w := fun e => hnotD (e ▸ hv)
        by_cases e : x = w
        · subst e
          by_cases hc : s.gid x ≤ s.gid v
          · right; refine ⟨v, by simp, ?_⟩
            rw [g2, if_pos hc, g1 v hane]
          · rw [g2, if_neg hc]
            rcases h.tight x hx with ht | ⟨a, ha, ht⟩
            · exact Or.inl ht
            · right
              refine ⟨a, List.mem_append_left _ ha, ?_⟩
              rw [g1 a (fun e => hnotD (e ▸ h.src a x ha))]; exact ht
        · rw [g1 x e]
          rcases h.tight x hx with ht | ⟨a, ha, ht⟩
          · exact Or.inl ht
          · right
            refine ⟨a, List.mem_append_left _ ha, ?_⟩
            rw [g1 a (fun e => hnotD (e ▸ h.src a x ha))]; exact ht
      · show s2.vcount + D.length = _
        rw [e2.2.1, e1.2.2.1]; exact h.vcount
      · intro x hx
        show s2.gid x = gid0 x
        rw [e2.1, g1 x (fun e => hx (e ▸ hwv))]; exact h.other x hx
    have hgv : ({ s2 with inb := upd s2.inb w (s.inb w - 1) } : S).gid v = s.gid v := by
      show s2.gid v = _
      rw [e2.1, g1 v (fun e => hnotD (e ▸ hv))]
    obtain ⟨s', P', h1, h2, h3, h4, h5⟩ := ih { s2 with inb := upd s2.inb w (s.inb w - 1) } D (P ++ [(v, w)]) hinv hv
      (by
        intro x hx
        have := hw x (List.mem_cons_of_mem _ hx)
        refine ⟨this.1, ?_⟩
        intro hh
        rcases List.mem_append.1 hh with hh | hh
        · exact this.2 hh
        · simp only [List.mem_singleton, Prod.mk.injEq, true_and] at hh
          subst hh
          exact (List.nodup_cons.1 hnd).1 hx) (List.nodup_cons.1 hnd).2
    rw [hgv] at h1
    refine ⟨s', P', h1, h2, ?_, ?_, ?_⟩
    · intro e
      rw [h3]
      rw [List.mem_append, List.mem_singleton]
      simp only [List.mem_cons (b := w)]
      constructor
      · rintro ((hh | hh) | ⟨x, hx, hh⟩)
        · exact Or.inl hh
        · exact Or.inr ⟨w, Or.inl rfl, hh⟩
        · exact Or.inr ⟨x, Or.inr hx, hh⟩
      · rintro (hh | ⟨x, rfl | hx, hh⟩)
        · exact Or.inl (Or.inl hh)
        · exact Or.inl (Or.inr hh)
        · exact Or.inr ⟨x, hx, hh⟩
    · rw [h4]; show s2.numGroups = _
      rw [e2.2.2.1, e1.2.2.2]
    · intro x hx
      rw [h5 x hx]
      show s2.gid x = _
      rw [e2.1, g1 x (fun e => hnotD (e ▸ hx))]

theorem kahn_spec {g : G} {E : List (Nat × Nat)} (r : Rep g E) : ∀ (fuel : Nat) (s : S) (D : List Nat)
    (P : List (Nat × Nat)), Inv g.verts E g.gid s D P → (∀ v w, (v, w) ∈ P ↔ (v, w) ∈ E ∧ v ∈ D) →
    (∀ v ∈ D, s.gid v ≤ s.numGroups) → (1 ≤ s.numGroups ∧ (s.numGroups = 1 ∨ ∃ v ∈ D, s.numGroups = s.gid v + 1)) →
    g.verts.length ≤ fuel + D.length →
    ∃ s' D' P', g.kahn fuel s = some s' ∧ Inv g.verts E g.gid s' D' P' ∧ s'.zlist = [] ∧
      (∀ v w, (v, w) ∈ P' ↔ (v, w) ∈ E ∧ v ∈ D') ∧ (∀ v ∈ D', s'.gid v ≤ s'.numGroups) ∧
      (1 ≤ s'.numGroups ∧ (s'.numGroups = 1 ∨ ∃ v ∈ D', s'.numGroups = s'.gid v + 1)) := by
  intro fuel
  induction fuel with
  | zero =>
    intro s D P h hP hN hN' hf
    cases hz : s.zlist with
    | nil => exact ⟨s, D, P, by unfold G.kahn; rw [hz], h, hz, hP, hN, hN'⟩
    | cons v zs =>
      exfalso
      have h1 := h.nodup.length_le_of_subset (l₂ := g.verts) (fun x hx => h.sub x hx)
      rw [hz] at h1; simp at h1; omega
  | succ fuel ih =>
    intro s D P h hP hN hN' hf
    cases hz : s.zlist with
    | nil => exact ⟨s, D, P, by unfold G.kahn; rw [hz], h, hz, hP, hN, hN'⟩
    | cons v zs =>
      have h1 := h.nodup.length_le_of_subset (l₂ := g.verts) (fun x hx => h.sub x hx)
      have hvc : s.vcount > 0 := by
        have := h.vcount
        rw [hz] at h1; simp at h1; omega
      have hvD : v ∉ D := by
        intro hh
        have := h.nodup
        rw [hz, List.nodup_append] at this
        exact this.2.2 v hh v List.mem_cons_self rfl
      have hmem : ∀ x, x ∈ (D ++ [v]) ++ zs ↔ x ∈ D ++ s.zlist := by
        intro x; rw [hz]; simp
      have hinv : Inv g.verts E g.gid { s with zlist := zs, vcount := s.vcount - 1 } (D ++ [v]) P := by
        constructor
        · show ((D ++ [v]) ++ zs).Nodup
          have := h.nodup
          rw [hz] at this
          simpa using this
        · intro x hx; exact h.sub x ((hmem x).1 hx)
        · exact h.count
        · intro x hx
          show x ∈ (D ++ [v]) ++ zs ↔ _
          rw [hmem]; exact h.zero x hx
        · exact h.nodupP
        · exact h.subP
        · intro a b hab; exact List.mem_append_left _ (h.src a b hab)
        · exact h.pos
        · exact h.lower
        · exact h.tight
        · show s.vcount - 1 + (D ++ [v]).length = _
          have := h.vcount
          simp; omega
        · exact h.other
      have hws : ∀ w ∈ g.out v, (v, w) ∈ E ∧ (v, w) ∉ P := by
        intro w hw
        refine ⟨(r.mem_out v w).1 hw, ?_⟩
        intro hh; exact hvD (h.src v w hh)
      have hnd : (g.out v).Nodup := by
        rw [r.out]
        have h2 : (E.filter (fun e => decide (e.1 = v))).Nodup := r.nodupE.filter _
        have h3 : ∀ e ∈ E.filter (fun e => decide (e.1 = v)), e.1 = v := by
          intro e he; simpa using (List.mem_filter.1 he).2
        generalize E.filter (fun e => decide (e.1 = v)) = L at h2 h3
        clear hinv hws hmem hvD hvc h1 hz hf hN' hN hP h
        induction L with
        | nil => simp
        | cons e L ih =>
          simp only [List.map_cons, List.nodup_cons] at h2 ⊢
          refine ⟨?_, ih h2.2 (fun x hx => h3 x (List.mem_cons_of_mem _ hx))⟩
          intro hh
          obtain ⟨e', he', h4⟩ := List.mem_map.1 hh
          have h5 := h3 e List.mem_cons_self
          have h6 := h3 e' (List.mem_cons_of_mem _ he')
          have : e' = e := Prod.ext (h6.trans h5.symm) h4
          exact h2.1 (this ▸ he')
      obtain ⟨s', P', k1, k2, k3, k4, k5⟩ := edges_spec r.ends v (g.out v) { s with zlist := zs, vcount := s.vcount - 1 }
        (D ++ [v]) P hinv (by simp) hws hnd
      unfold G.kahn
      rw [hz]
      simp only
      rw [if_pos hvc]
      simp only at k1
      rw [k1]
      simp only [Option.bind_some]
      have hk5 : ∀ x ∈ D ++ [v], s'.gid x = s.gid x := k5
      have hk4 : s'.numGroups = s.numGroups := k4
      generalize hs2 : (if s'.gid v > s'.numGroups then { s' with numGroups := s'.gid v + 1 } else s') = s2
      have e2 : s2.zlist = s'.zlist ∧ s2.inb = s'.inb ∧ s2.gid = s'.gid ∧ s2.vcount = s'.vcount ∧
          s2.numGroups = if s'.gid v > s'.numGroups then s'.gid v + 1 else s'.numGroups := by
        subst hs2; split <;> exact ⟨rfl, rfl, rfl, rfl, rfl⟩
      have hinv2 : Inv g.verts E g.gid s2 (D ++ [v]) P' := by
        obtain ⟨a1, a2, a3, a4, a5, a6, a7, a8, a9, a10, a11, a12⟩ := k2
        exact ⟨by rw [e2.1]; exact a1, by rw [e2.1]; exact a2, by rw [e2.2.1]; exact a3,
          by rw [e2.1, e2.2.1]; exact a4, a5, a6, a7, by rw [e2.2.2.1]; exact a8,
          by rw [e2.2.2.1]; exact a9, by rw [e2.2.2.1]; exact a10, by rw [e2.2.2.2.1]; exact a11,
          by rw [e2.2.2.1]; exact a12⟩
      apply ih s2 (D ++ [v]) P' hinv2
      · intro a b
        rw [k3, hP]
        simp only [List.mem_append, List.mem_singleton, Prod.mk.injEq]
        constructor
        · rintro (⟨h1, h2⟩ | ⟨w, hw, rfl, rfl⟩)
          · exact ⟨h1, Or.inl h2⟩
          · exact ⟨(hws _ hw).1, Or.inr rfl⟩
        · rintro ⟨h1, h2 | h2⟩
          · exact Or.inl ⟨h1, h2⟩
          · subst h2; exact Or.inr ⟨b, (r.mem_out _ _).2 h1, rfl, rfl⟩
      · intro x hx
        rw [e2.2.2.1, e2.2.2.2.2]
        rcases List.mem_append.1 hx with hx' | hx'
        · have := hN x hx'
          rw [hk5 x hx]
          split <;> omega
        · simp only [List.mem_singleton] at hx'
          subst hx'
          split <;> omega
      · rw [e2.2.2.1, e2.2.2.2.2]
        split
        · exact ⟨by omega, Or.inr ⟨v, by simp, rfl⟩⟩
        · rw [hk4]
          refine ⟨hN'.1, ?_⟩
          rcases hN'.2 with h | ⟨x, hx, h⟩
          · exact Or.inl h
          · exact Or.inr ⟨x, List.mem_append_left _ hx, by rw [hk5 x (List.mem_append_left _ hx)]; exact h⟩
      · simp; omega

/-- the group ids are the lengths of the longest chains of precedences -/
structure Ranked (verts : List Nat) (E : List (Nat × Nat)) (gid : Nat → Nat) : Prop where
  pos : ∀ w ∈ verts, 1 ≤ gid w
  lower : ∀ v w, (v, w) ∈ E → gid v + 1 ≤ gid w
  tight : ∀ w ∈ verts, gid w = 1 ∨ ∃ v, (v, w) ∈ E ∧ gid w = gid v + 1

theorem Rep.sort {g : G} {E : List (Nat × Nat)} (r : Rep g E) :
    (¬ Cyclic E ∧ ∃ g', g.sort = .ok g' ∧ Rep g' E ∧ g'.verts = g.verts ∧ Ranked g.verts E g'.gid ∧
        (∀ w, w ∉ g.verts → g'.gid w = g.gid w) ∧
        (∀ v ∈ g.verts, g'.gid v ≤ g'.numGroups) ∧
        (1 ≤ g'.numGroups ∧ (g'.numGroups = 1 ∨ ∃ v ∈ g.verts, g'.numGroups = g'.gid v + 1))) ∨
    (Cyclic E ∧ ∃ l, g.sort = .cycle l ∧ RealCycle E l) := by
  have h0 : Inv g.verts E g.gid { zlist := g.verts.filter (fun v => g.inb v = 0), vcount := g.verts.length, gid := fun v => if v ∈ g.verts then 1 else g.gid v, inb := g.inb, numGroups := 1 } [] [] := by
    constructor
    · exact r.nodupV.filter _
    · intro v hv; simp at hv; exact hv.1
    · intro w; show g.inb w + into [] w = _; rw [r.inb]; simp [into]
    · intro w hw; simp [hw]
    · simp
    · simp
    · simp
    · intro w hw; simp [hw]
    · simp
    · intro w hw; simp [hw]
    · simp
    · intro w hw; simp [hw]
  obtain ⟨s', D, P, k1, k2, k3, k4, k5, k6⟩ := kahn_spec r g.verts.length _ [] [] h0 (by simp) (by simp) (by simp) (by simp)
  unfold G.sort
  simp only [k1]
  by_cases hv : s'.vcount = 0
  · -- everything was taken
    left
    have hall : ∀ v ∈ g.verts, v ∈ D := by
      intro v hv'
      apply Classical.byContradiction
      intro hn
      have h1 : (D ++ s'.zlist).Nodup := k2.nodup
      rw [k3, List.append_nil] at h1
      have h2 : (v :: D).Nodup := List.nodup_cons.2 ⟨hn, h1⟩
      have h3 : (v :: D).Subset g.verts := by
        intro x hx
        rcases List.mem_cons.1 hx with rfl | hx
        · exact hv'
        · exact k2.sub x (List.mem_append_left _ hx)
      have := h2.length_le_of_subset h3
      have := k2.vcount
      simp at *; omega
    have hPE : ∀ v w, (v, w) ∈ P ↔ (v, w) ∈ E := by
      intro v w; rw [k4]
      exact ⟨fun h => h.1, fun h => ⟨h, hall v (r.ends v w h).1⟩⟩
    have hlow : ∀ v w, (v, w) ∈ E → s'.gid v + 1 ≤ s'.gid w :=
      fun v w h => k2.lower v w ((hPE v w).2 h)
    refine ⟨?_, { g with gid := s'.gid, numGroups := s'.numGroups }, by rw [if_neg (by simpa using hv)], ?_, rfl, ⟨k2.pos, hlow, ?_⟩, k2.other, fun v hv => k5 v (hall v hv), ?_⟩
    · rintro ⟨v, p⟩
      have : ∀ a b, TransGen (fun v w => (v, w) ∈ E) a b → s'.gid a < s'.gid b := by
        intro a b p
        induction p with
        | single e => exact hlow _ _ e
        | tail _ e ih => have := hlow _ _ e; omega
      exact absurd (this v v p) (Nat.lt_irrefl _)
    · exact ⟨r.nodupE, r.irrefl, r.out, r.inb, r.nodupV, r.inDag, r.ends⟩
    · intro w hw
      rcases k2.tight w hw with h | ⟨v, hv, h⟩
      · exact Or.inl h
      · exact Or.inr ⟨v, (hPE v w).1 hv, h⟩
    · refine ⟨k6.1, ?_⟩
      rcases k6.2 with h | ⟨v, hv, h⟩
      · exact Or.inl h
      · exact Or.inr ⟨v, k2.sub v (List.mem_append_left _ hv), h⟩
  · right
    have hne : (g.verts.filter (fun v => decide (v ∉ D))) ≠ [] := by
      intro he
      have hsub : ∀ v ∈ g.verts, v ∈ D := by
        intro v hv
        apply Classical.byContradiction
        intro hn
        have : v ∈ g.verts.filter (fun v => decide (v ∉ D)) := List.mem_filter.2 ⟨hv, by simpa using hn⟩
        rw [he] at this; cases this
      have := r.nodupV.length_le_of_subset (l₂ := D) (fun x hx => hsub x hx)
      have := k2.vcount
      omega
    have hcyc : Cyclic E := by
      apply cycle_of_pred _ _ (Nat.le_refl _) hne
      intro w hw
      obtain ⟨hw1, hw2⟩ := List.mem_filter.1 hw
      simp only [decide_eq_true_eq] at hw2
      have h1 : s'.inb w ≠ 0 := by
        intro h
        have := (k2.zero w hw1).2 h
        rw [k3, List.append_nil] at this
        exact hw2 this
      have h2 := k2.count w
      have h3 : ∃ v, (v, w) ∈ E ∧ (v, w) ∉ P := by
        apply Classical.byContradiction
        intro hn
        have : (E.filter (fun e => decide (e.2 = w))).Subset (P.filter (fun e => decide (e.2 = w))) := by
          intro e he
          obtain ⟨he1, he2⟩ := List.mem_filter.1 he
          simp only [decide_eq_true_eq] at he2
          refine List.mem_filter.2 ⟨?_, by simpa using he2⟩
          apply Classical.byContradiction
          intro hh
          exact hn ⟨e.1, by rw [← he2]; exact he1, by rw [← he2]; exact hh⟩
        have hnd : (E.filter (fun e => decide (e.2 = w))).Nodup := r.nodupE.filter _
        have := hnd.length_le_of_subset this
        unfold into at h2
        omega
      obtain ⟨v, hv1, hv2⟩ := h3
      refine ⟨v, List.mem_filter.2 ⟨(r.ends v w hv1).1, ?_⟩, hv1⟩
      simp only [decide_eq_true_eq]
      intro hh; exact hv2 ((k4 v w).2 ⟨hv1, hh⟩)
    obtain ⟨l, hl, hl1, -⟩ := r.getCycles
    refine ⟨hcyc, l, ?_, hl1 hcyc⟩
    rw [if_pos hv, hl]

/-- ranks are determined by the edges -/
theorem Ranked.unique {V V' : List Nat} {E E' : List (Nat × Nat)} {a b : Nat → Nat}
    (hE : ∀ e, e ∈ E ↔ e ∈ E') (hV : ∀ v w, (v, w) ∈ E → v ∈ V ∧ v ∈ V' ∧ w ∈ V ∧ w ∈ V') (ha : Ranked V E a) (hb : Ranked V' E' b) :
    ∀ w, w ∈ V → w ∈ V' → a w = b w := by
  have key : ∀ (V V' : List Nat) (E E' : List (Nat × Nat)) (a b : Nat → Nat), (∀ e, e ∈ E ↔ e ∈ E') →
      (∀ v w, (v, w) ∈ E → v ∈ V ∧ v ∈ V' ∧ w ∈ V ∧ w ∈ V') → Ranked V E a → Ranked V' E' b →
      ∀ n w, w ∈ V → w ∈ V' → a w ≤ n → a w ≤ b w := by
    intro V V' E E' a b hE hV ha hb n
    induction n with
    | zero => intro w hw _ h; have := ha.pos w hw; omega
    | succ n ih =>
      intro w hw hw' h
      rcases ha.tight w hw with h1 | ⟨v, hv, h1⟩
      · rw [h1]; exact hb.pos w hw'
      · have := ih v (hV v w hv).1 (hV v w hv).2.1 (by omega)
        have := hb.lower v w ((hE _).1 hv)
        omega
  intro w hw hw'
  have h1 := key V V' E E' a b hE hV ha hb (a w) w hw hw' (Nat.le_refl _)
  have h2 := key V' V E' E b a (fun e => (hE e).symm)
    (fun v w h => by have := hV v w ((hE _).2 h); exact ⟨this.2.1, this.1, this.2.2.2, this.2.2.1⟩) hb ha (b w) w hw' hw (Nat.le_refl _)
  omega

end Sparta.DAG
