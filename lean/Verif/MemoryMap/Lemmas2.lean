import Verif.MemoryMap.Lemmas

/-!
Rotations, recolouring and insertion of a leaf on the heap.
-/

namespace Sparta.MemoryMap

/-- The heap and root pointer of `s` hold exactly the tree `t`. -/
structure TRep (s : Tree) (t : T) : Prop where
  rep : Rep s.h none t
  root : s.root = t.root
  nodup : t.ids.Nodup

@[simp] theorem ch_setCh_same (x : Node) (d v) : (x.setCh d v).ch d = v := by
  cases d <;> rfl
@[simp] theorem ch_setCh_not (x : Node) (d v) : (x.setCh d v).ch (!d) = x.ch (!d) := by
  cases d <;> rfl
@[simp] theorem ch_setCh_not' (x : Node) (d v) : (x.setCh (!d) v).ch d = x.ch d := by
  cases d <;> rfl
@[simp] theorem parent_setCh (x : Node) (d v) : (x.setCh d v).parent = x.parent := by
  cases d <;> rfl
@[simp] theorem red_setCh (x : Node) (d v) : (x.setCh d v).red = x.red := by
  cases d <;> rfl
@[simp] theorem key_setCh (x : Node) (d v) : (x.setCh d v).key = x.key := by
  cases d <;> rfl
@[simp] theorem ch_mkNode (d k c x y p) : (mkNode d k c x y p).ch d = x := by cases d <;> rfl
@[simp] theorem ch_mkNode_not (d k c x y p) : (mkNode d k c x y p).ch (!d) = y := by
  cases d <;> rfl
@[simp] theorem parent_mkNode (d k c x y p) : (mkNode d k c x y p).parent = p := by
  cases d <;> rfl
@[simp] theorem red_mkNode (d k c x y p) : (mkNode d k c x y p).red = c := by cases d <;> rfl
@[simp] theorem key_mkNode (d k c x y p) : (mkNode d k c x y p).key = k := by cases d <;> rfl
theorem mkNode_not (d k c x y p) : mkNode (!d) k c x y p = mkNode d k c y x p := by
  cases d <;> rfl

theorem root_plug_cons (f : Frame) (fs : List Frame) (t t' : T) :
    (plug t (f :: fs)).root = (plug t' (f :: fs)).root := by
  induction fs generalizing f t t' with
  | nil => simp [plug]
  | cons g fs ih => rw [plug, plug]; exact ih _ _ _

theorem root_plug_congr {t t' : T} (fs : List Frame) (h : t.root = t'.root) :
    (plug t fs).root = (plug t' fs).root := by
  cases fs with
  | nil => exact h
  | cons f fs => exact root_plug_cons _ _ _ _

theorem root_mem {t : T} {i : Nat} (h : t.root = some i) : i ∈ t.ids := by
  cases t with
  | leaf => cases h
  | node j k c l r =>
    have : j = i := by simpa [T.root] using h
    subst this; simp [T.ids, T.io]

/-- The pointer writes of a rotation. -/
theorem rotate_heap {s : Tree} {d : Bool} {n m : Nat} {kn km cn cm} {x y z q : Option Nat}
    (hn : s.h n = mkNode d kn cn (some m) z q)
    (hm : s.h m = mkNode d km cm x y (some n))
    (nm : n ≠ m) (hy : ∀ c, y = some c → c ≠ n ∧ c ≠ m)
    (hq : ∀ p, q = some p → p ≠ n ∧ p ≠ m ∧ y ≠ some p) :
    ∃ s', rotate d s n = some s' ∧ s'.next = s.next ∧
      s'.h n = mkNode d kn cn y z (some m) ∧
      s'.h m = mkNode d km cm x (some n) q ∧
      (∀ c, y = some c → s'.h c = { s.h c with parent := some n }) ∧
      (∀ p, q = some p → s'.h p = (s.h p).setCh (if (s.h p).ch (!d) = some n then !d else d) (some m)) ∧
      (q = none → s'.root = some m) ∧ (q ≠ none → s'.root = s.root) ∧
      (∀ j, j ≠ n → j ≠ m → y ≠ some j → q ≠ some j → s'.h j = s.h j) := by
  have nm' : m ≠ n := fun h => nm h.symm
  have e1 : (s.h n).ch d = some m := by simp [hn]
  have e2 : (s.h m).ch (!d) = y := by simp [hm]
  have fn : ∀ v, ((s.h n).setCh d v) = mkNode d kn cn v z q := by
    intro v; rw [hn]; cases d <;> rfl
  have fm : ∀ v p', (⟨(s.h m).key, (s.h m).red, (s.h m).l, (s.h m).r, p'⟩ : Node).setCh (!d) v =
      mkNode d km cm x v p' := by
    intro v p'; rw [hm]; cases d <;> rfl
  have fnp : ∀ v p', (⟨kn, cn, (mkNode d kn cn v z q).l, (mkNode d kn cn v z q).r, p'⟩ : Node) =
      mkNode d kn cn v z p' := by
    intro v p'; cases d <;> rfl
  cases y with
  | none =>
    cases q with
    | none =>
      refine ⟨_, by simp only [rotate, e1]; rfl, ?_⟩
      simp [Tree.setCh, Tree.setParent, upd, e2, fn, nm, nm', fm, fnp]
      intro j h1 h2; simp [h1, h2]
    | some p =>
      obtain ⟨p1, p2, _⟩ := hq p rfl
      have p1' : n ≠ p := fun h => p1 h.symm
      have p2' : m ≠ p := fun h => p2 h.symm
      refine ⟨_, by simp only [rotate, e1]; rfl, ?_⟩
      by_cases hc : (s.h p).ch (!d) = some n
      · simp [Tree.setCh, Tree.setParent, upd, e2, fn, nm, nm', fm, fnp, p1, p2, hc, p1', p2']
        intro j h1 h2 h3; have h3' : j ≠ p := Ne.symm h3; simp [h1, h2, h3']
      · simp [Tree.setCh, Tree.setParent, upd, e2, fn, nm, nm', fm, fnp, p1, p2, hc, p1', p2']
        intro j h1 h2 h3; have h3' : j ≠ p := Ne.symm h3; simp [h1, h2, h3']
  | some c =>
    obtain ⟨c1, c2⟩ := hy c rfl
    have c1' : n ≠ c := fun h => c1 h.symm
    have c2' : m ≠ c := fun h => c2 h.symm
    cases q with
    | none =>
      refine ⟨_, by simp only [rotate, e1]; rfl, ?_⟩
      simp [Tree.setCh, Tree.setParent, upd, e2, fn, nm, nm', fm, fnp, c1, c2, c1', c2']
      intro j h1 h2 h3; have h3' : j ≠ c := Ne.symm h3; simp [h1, h2, h3']
    | some p =>
      obtain ⟨p1, p2, p3⟩ := hq p rfl
      have p1' : n ≠ p := fun h => p1 h.symm
      have p2' : m ≠ p := fun h => p2 h.symm
      have p3' : c ≠ p := fun h => p3 (by rw [h])
      have p4' : p ≠ c := fun h => p3 (by rw [h])
      refine ⟨_, by simp only [rotate, e1]; rfl, ?_⟩
      by_cases hc : (s.h p).ch (!d) = some n
      · simp [Tree.setCh, Tree.setParent, upd, e2, fn, nm, nm', fm, fnp, p1, p2, hc, p1', p2', c1, c2, c1', c2', p3', p4']
        intro j h1 h2 h3 h4; have h3' : j ≠ c := Ne.symm h3; have h4' : j ≠ p := Ne.symm h4; simp [h1, h2, h3', h4']
      · simp [Tree.setCh, Tree.setParent, upd, e2, fn, nm, nm', fm, fnp, p1, p2, hc, p1', p2', c1, c2, c1', c2', p3', p4']
        intro j h1 h2 h3 h4; have h3' : j ≠ c := Ne.symm h3; have h4' : j ≠ p := Ne.symm h4; simp [h1, h2, h3', h4']

/-- A rotation of a subtree anywhere in the tree. -/
theorem rotate_rep {s : Tree} {d : Bool} {n m : Nat} {kn km cn cm} {x y z : T} {fs : List Frame}
    (H : TRep s (plug (T.nd d n kn cn (T.nd d m km cm x y) z) fs)) :
    ∃ s', rotate d s n = some s' ∧ s'.next = s.next ∧
      TRep s' (plug (T.nd d m km cm x (T.nd d n kn cn y z)) fs) := by
  obtain ⟨hr, hroot, hnd⟩ := H
  have hnd0 := hnd
  rw [nodup_plug] at hnd
  obtain ⟨nt, nc, ntc⟩ := hnd
  have nt0 := nt
  rw [nodup_nd, nodup_nd] at nt
  obtain ⟨a1, a2, ⟨b1, b2, b3, b4, b5⟩, a4, a5⟩ := nt
  rw [rep_plug, rep_nd, rep_nd, root_nd, root_nd] at hr
  obtain ⟨rc, hn, ⟨hm, rx, ry⟩, rz⟩ := hr
  have hmem : ∀ j, j ∈ (T.nd d n kn cn (T.nd d m km cm x y) z).ids ↔
      j = n ∨ (j = m ∨ j ∈ x.ids ∨ j ∈ y.ids) ∨ j ∈ z.ids := by
    intro j; rw [ids_nd, ids_nd]
  have a1' : n ≠ m ∧ n ∉ x.ids ∧ n ∉ y.ids := by
    rw [ids_nd] at a1
    exact ⟨fun h => a1 (Or.inl h), fun h => a1 (Or.inr (Or.inl h)), fun h => a1 (Or.inr (Or.inr h))⟩
  have a5' : m ∉ z.ids ∧ (∀ j ∈ x.ids, j ∉ z.ids) ∧ (∀ j ∈ y.ids, j ∉ z.ids) :=
    ⟨a5 m (ids_nd.2 (Or.inl rfl)), fun j h => a5 j (ids_nd.2 (Or.inr (Or.inl h))),
      fun j h => a5 j (ids_nd.2 (Or.inr (Or.inr h)))⟩
  have hpar : ∀ p, par fs = some p → p ∈ idsC fs := by
    intro p hp
    cases fs with
    | nil => cases hp
    | cons f fs =>
      have : f.i = p := by simpa [par] using hp
      exact this ▸ idsC_cons.2 (Or.inl rfl)
  obtain ⟨s', e, enx, en, em, ec, ep, er1, er2, eo⟩ := rotate_heap (s := s) hn hm a1'.1
    (fun c hc => ⟨fun h => a1'.2.2 (h ▸ root_mem hc), fun h => b2 (h ▸ root_mem hc)⟩)
    (fun p hp => ⟨fun h => ntc n ((hmem n).2 (Or.inl rfl)) (h ▸ hpar p hp),
      fun h => ntc m ((hmem m).2 (Or.inr (Or.inl (Or.inl rfl)))) (h ▸ hpar p hp),
      fun h => ntc p ((hmem p).2 (Or.inr (Or.inl (Or.inr (Or.inr (root_mem h)))))) (hpar p hp)⟩)
  -- nodes untouched
  have hx : ∀ j ∈ x.ids, s'.h j = s.h j := by
    intro j hj
    refine eo j (fun h => a1'.2.1 (h ▸ hj)) (fun h => b1 (h ▸ hj)) (fun h => b5 j hj (root_mem h)) ?_
    intro h; exact ntc j ((hmem j).2 (Or.inr (Or.inl (Or.inr (Or.inl hj))))) (hpar j h)
  have hz : ∀ j ∈ z.ids, s'.h j = s.h j := by
    intro j hj
    refine eo j (fun h => a2 (h ▸ hj)) (fun h => a5'.1 (h ▸ hj))
      (fun h => a5'.2.2 j (root_mem h) hj) ?_
    intro h; exact ntc j ((hmem j).2 (Or.inr (Or.inr hj))) (hpar j h)
  have hcx : ∀ j ∈ idsC fs, par fs ≠ some j → s'.h j = s.h j := by
    intro j hj hp
    refine eo j (fun h => ntc n ((hmem n).2 (Or.inl rfl)) (h ▸ hj))
      (fun h => ntc m ((hmem m).2 (Or.inr (Or.inl (Or.inl rfl)))) (h ▸ hj))
      (fun h => ntc j ((hmem j).2 (Or.inr (Or.inl (Or.inr (Or.inr (root_mem h)))))) hj) hp
  have ry' : Rep s'.h (some n) y := by
    refine rep_reparent ry b4 ?_ (fun j hj => ec j hj)
    intro j hj hne
    refine eo j (fun h => a1'.2.2 (h ▸ hj)) (fun h => b2 (h ▸ hj)) (fun h => hne h.symm) ?_
    intro h; exact ntc j ((hmem j).2 (Or.inr (Or.inl (Or.inr (Or.inr hj))))) (hpar j h)
  have hnd' : (plug (T.nd d m km cm x (T.nd d n kn cn y z)) fs).ids.Nodup := by
    have : (plug (T.nd d m km cm x (T.nd d n kn cn y z)) fs).io =
        (plug (T.nd d n kn cn (T.nd d m km cm x y) z) fs).io := by
      rw [io_plug, io_plug]; cases d <;> simp [T.nd, T.io]
    unfold T.ids at *; rw [this]; exact hnd0
  refine ⟨s', e, enx, ?_, ?_, hnd'⟩
  · rw [rep_plug, rep_nd, rep_nd, root_nd, root_nd]
    refine ⟨?_, em, rep_frame rx hx, en, ry', rep_frame rz hz⟩
    cases fs with
    | nil => trivial
    | cons f fs =>
      refine repC_refill rc nc (fun j hj hne => hcx j hj ?_) ?_
      · intro h; exact hne (by simpa [par] using h.symm)
      · rw [ep f.i rfl]
        have hf := rc.1
        congr 1
        by_cases hd : f.d = d
        · have hns : f.s.root ≠ some n := by
            intro h
            exact ntc n ((hmem n).2 (Or.inl rfl)) (idsC_cons.2 (Or.inr (Or.inl (root_mem h))))
          rw [hf, hd, ch_mkNode_not, if_neg hns]
        · have hd' : f.d = !d := by revert hd; cases f.d <;> cases d <;> simp
          rw [hf, hd', ch_mkNode, if_pos rfl]
  · cases fs with
    | nil => simpa [plug] using er1 rfl
    | cons f fs => rw [er2 (by simp [par]), hroot]; exact root_plug_cons _ _ _ _

/-- Recolouring a node. -/
theorem setRed_rep {s : Tree} {d : Bool} {n : Nat} {k c v} {a b : T} {fs : List Frame}
    (H : TRep s (plug (T.nd d n k c a b) fs)) :
    TRep (s.setRed n v) (plug (T.nd d n k v a b) fs) := by
  obtain ⟨hr, hroot, hnd⟩ := H
  have hnd0 := hnd
  rw [nodup_plug, nodup_nd] at hnd
  obtain ⟨⟨a1, a2, _⟩, _, ntc⟩ := hnd
  rw [rep_plug, rep_nd, root_nd] at hr
  obtain ⟨rc, hn, ra, rb⟩ := hr
  refine ⟨?_, ?_, ?_⟩
  · rw [rep_plug, rep_nd, root_nd]
    refine ⟨repC_frame rc ?_, ?_, rep_frame ra ?_, rep_frame rb ?_⟩
    · intro j hj
      exact upd_other _ _ (fun h => ntc n (ids_nd.2 (Or.inl rfl)) (h ▸ hj))
    · simp only [Tree.setRed, upd_same, hn]; cases d <;> rfl
    · intro j hj; exact upd_other _ _ (fun h => a1 (h ▸ hj))
    · intro j hj; exact upd_other _ _ (fun h => a2 (h ▸ hj))
  · show s.root = _
    rw [hroot]; exact root_plug_congr fs (by simp)
  · have : (plug (T.nd d n k v a b) fs).io = (plug (T.nd d n k c a b) fs).io := by
      rw [io_plug, io_plug]; cases d <;> simp [T.nd, T.io]
    unfold T.ids at *; rw [this]; exact hnd0

/-- Linking a new leaf into an empty place. -/
theorem link_rep {s : Tree} {d : Bool} {n : Nat} {k k' c} {b : T} {fs : List Frame}
    (H : TRep s (plug (T.nd d n k c .leaf b) fs))
    (hf : s.next ∉ (plug (T.nd d n k c .leaf b) fs).ids) :
    TRep ((s.alloc (some n) k').setCh n d (some s.next))
      (plug (T.nd d n k c (.node s.next k' true .leaf .leaf) b) fs) := by
  obtain ⟨hr, hroot, hnd⟩ := H
  have hf0 : s.next ∉ (T.nd d n k c .leaf b).ids ∧ s.next ∉ idsC fs := by
    unfold T.ids at hf ⊢
    rw [io_plug] at hf
    unfold idsC
    simp only [List.map_append, List.mem_append] at hf ⊢
    exact ⟨fun h => hf (Or.inl (Or.inr h)),
      fun h => hf (h.elim (fun h => Or.inl (Or.inl h)) Or.inr)⟩
  rw [ids_nd] at hf0
  have fn : s.next ≠ n := fun h => hf0.1 (Or.inl h)
  have fb : s.next ∉ b.ids := fun h => hf0.1 (Or.inr (Or.inr h))
  have hnd0 := hnd
  rw [nodup_plug] at hnd
  obtain ⟨nt, nc, ntc⟩ := hnd
  have nt0 := nt
  rw [nodup_nd] at nt
  obtain ⟨a1, a2, _, a4, _⟩ := nt
  rw [rep_plug, rep_nd, root_nd] at hr
  obtain ⟨rc, hn, ra, rb⟩ := hr
  have hn' : upd s.h s.next ⟨k', true, none, none, some n⟩ n = s.h n := upd_other _ _ (fun h => fn h.symm)
  have hother : ∀ j, j ≠ n → j ≠ s.next →
      ((s.alloc (some n) k').setCh n d (some s.next)).h j = s.h j := by
    intro j h1 h2
    simp only [Tree.setCh, Tree.alloc]
    rw [upd_other _ _ h1, upd_other _ _ h2]
  refine ⟨?_, ?_, ?_⟩
  · rw [rep_plug, rep_nd, root_nd]
    refine ⟨repC_frame rc ?_, ?_, ?_, rep_frame rb ?_⟩
    · intro j hj
      exact hother j (fun h => ntc n (ids_nd.2 (Or.inl rfl)) (h ▸ hj)) (fun h => hf0.2 (h ▸ hj))
    · simp only [Tree.setCh, Tree.alloc, upd_same, hn', hn]; cases d <;> rfl
    · refine ⟨?_, trivial, trivial⟩
      simp only [Tree.setCh, Tree.alloc]
      rw [upd_other _ _ fn, upd_same]; rfl
    · intro j hj; exact hother j (fun h => a2 (h ▸ hj)) (fun h => fb (h ▸ hj))
  · show s.root = _
    rw [hroot]; exact root_plug_congr fs (by simp)
  · have hi : (T.node s.next k' true T.leaf T.leaf).ids = [s.next] := by simp [T.ids, T.io]
    rw [nodup_plug, nodup_nd, hi]
    refine ⟨⟨by simp; exact fun h => fn h.symm, a2, by simp, a4, by simpa using fb⟩, nc, ?_⟩
    intro j hj
    rw [ids_nd, hi] at hj
    rcases hj with h | h | h
    · exact ntc j (ids_nd.2 (Or.inl h))
    · have : j = s.next := by simpa using h
      rw [this]; exact hf0.2
    · exact ntc j (ids_nd.2 (Or.inr (Or.inr h)))

end Sparta.MemoryMap
