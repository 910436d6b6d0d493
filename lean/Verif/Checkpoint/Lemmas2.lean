import Verif.Checkpoint.Lemmas
/-! Deleting, and all calls together. -/
namespace Sparta.Checkpoint
open Sparta.ArchData

theorem usable_cases {s : Spec} {id : Nat} (hu : s.usable id = true) :
    (∃ k, s.chks[id]? = some k ∧ k.deleted = false) ∨ s.chks[id]? = none := by
  rcases Option.eq_none_or_eq_some s.chks[id]? with hk | ⟨k, hk⟩
  · exact Or.inr hk
  · left
    refine ⟨k, hk, ?_⟩
    unfold Spec.usable Spec.alive at hu
    rw [hk] at hu
    have := List.getElem?_eq_some_iff.1 hk |>.1
    have h2 : decide (s.chks.length ≤ id) = false := by simp; omega
    rw [h2] at hu
    simpa using hu

theorem Rep.absent {cf : List Cfg} {c : CP} {s : Spec} (r : Rep cf c s) {id : Nat} (h : s.chks[id]? = none) :
    c.chk id = none := by
  rcases Option.eq_none_or_eq_some (c.chk id) with h' | ⟨n, h'⟩
  · exact h'
  · obtain ⟨k, h1, _⟩ := r.node id n h'
    rw [h] at h1
    cases h1

/-- flagging a checkpoint as deleted -/
theorem flag_rep {cf : List Cfg} {c : CP} {s : Spec} (r : Rep cf c s) {id : Nat} {k : Chk} {n : Node}
    (hk : s.chks[id]? = some k) (hal : k.deleted = false) (hn : c.chk id = some n) (hs : n.snap = k.snap) (hdel : n.deleted = false) :
    Rep cf { c with dead := c.dead + 1, snaps := c.snaps - (if n.snap then 1 else 0), alive := c.alive - 1,
                    chk := upd c.chk id (some { n with deleted := true }) }
      { s with chks := s.chks.set id { k with deleted := true } } := by
  have hlt := List.getElem?_eq_some_iff.1 hk |>.1
  have hget := List.getElem?_eq_some_iff.1 hk |>.2
  have hlen : (s.chks.set id { k with deleted := true }).length = s.chks.length := List.length_set
  have hset : ∀ i k', (s.chks.set id { k with deleted := true })[i]? = some k' → ∃ k0, s.chks[i]? = some k0 ∧ k'.mems = k0.mems ∧
      k'.dist = k0.dist ∧ k'.tick = k0.tick ∧ (k'.deleted = false → i ≠ id ∧ k0.deleted = false) := by
    intro i k' h
    rw [List.getElem?_set] at h
    by_cases e : id = i
    · subst e
      rw [if_pos rfl, if_pos hlt] at h
      cases h
      exact ⟨k, hk, rfl, rfl, rfl, fun h => by cases h⟩
    · rw [if_neg e] at h
      exact ⟨k', h, rfl, rfl, rfl, fun h' => ⟨fun x => e x.symm, h'⟩⟩
  have vi : upd c.chk id (some { n with deleted := true }) id = some { n with deleted := true } := by simp [upd]
  have vo : ∀ i, i ≠ id → upd c.chk id (some { n with deleted := true }) i = c.chk i := fun i h => upd_other _ _ h
  have fwd : ∀ i m, c.chk i = some m → ∃ m', upd c.chk id (some { n with deleted := true }) i = some m' ∧ m'.snap = m.snap ∧
      m'.prev = m.prev ∧ m'.data = m.data ∧ m'.nexts = m.nexts ∧ m'.tick = m.tick := by
    intro i m hi
    by_cases e : i = id
    · subst e
      rw [hn] at hi
      cases hi
      exact ⟨_, vi, rfl, rfl, rfl, rfl, rfl⟩
    · exact ⟨m, by rw [vo i e]; exact hi, rfl, rfl, rfl, rfl, rfl⟩
  have bwd : ∀ i m', upd c.chk id (some { n with deleted := true }) i = some m' → ∃ m, c.chk i = some m ∧ m'.snap = m.snap ∧
      m'.prev = m.prev ∧ m'.nexts = m.nexts ∧ m'.tick = m.tick ∧ (i ≠ id → m'.deleted = m.deleted) ∧ (i = id → m'.deleted = true) := by
    intro i m' hi
    by_cases e : i = id
    · subst e
      rw [vi] at hi
      cases hi
      exact ⟨n, hn, rfl, rfl, rfl, rfl, fun h => absurd rfl h, fun _ => rfl⟩
    · rw [vo i e] at hi
      exact ⟨m', hi, rfl, rfl, rfl, rfl, fun _ => rfl, fun h => absurd h e⟩
  refine ⟨r.ads, r.ofs, by rw [hlen]; exact r.next, r.now, r.thresh, r.cur, by dsimp only; rw [hlen]; exact r.head, by rw [hlen]; exact r.curNone, ?_, ?_, ?_, ?_, ?_, ?_, ?_, ?_, ?_⟩
  · intro h
    rw [hlen] at h
    obtain ⟨i, k0, h1, h2⟩ := r.curSome h
    dsimp only
    by_cases e : id = i
    · subst e; exact ⟨id, _, h1, by rw [List.getElem?_set, if_pos rfl, if_pos hlt]⟩
    · exact ⟨i, k0, h1, by rw [List.getElem?_set, if_neg e]; exact h2⟩
  · dsimp only
    refine ⟨?_, ?_, ?_, ?_, ?_, ?_⟩
    · intro i m' hi; obtain ⟨m, h1, _⟩ := bwd i m' hi; exact r.tree.lt i m h1
    · intro i m' p hi hp
      obtain ⟨m, h1, h2, h3, h4, h5, _⟩ := bwd i m' hi
      obtain ⟨a1, q, a2, a3, a4⟩ := r.tree.prevOk i m p h1 (by rw [← h3]; exact hp)
      obtain ⟨q', g1, _, _, _, g5, g6⟩ := fwd p q a2
      exact ⟨a1, q', g1, by rw [g5]; exact a3, by rw [g6, h5]; exact a4⟩
    · intro i m' x hi hx
      obtain ⟨m, h1, h2, h3, h4, h5, _⟩ := bwd i m' hi
      obtain ⟨q, a1, a2⟩ := r.tree.nextOk i m x h1 (by rw [← h4]; exact hx)
      obtain ⟨q', g1, _, g3, _⟩ := fwd x q a1
      exact ⟨q', g1, g3.trans a2⟩
    · intro i m' hi
      obtain ⟨m, h1, h2, h3, h4, h5, _⟩ := bwd i m' hi
      rw [h4]; exact r.tree.nodup i m h1
    · intro i m' hi hp
      obtain ⟨m, h1, h2, h3, h4, h5, _⟩ := bwd i m' hi
      rw [h2]; exact r.tree.root i m h1 (by rw [← h3]; exact hp)
    · intro h hh
      obtain ⟨m, h1, h2⟩ := r.tree.headIn h hh
      obtain ⟨m', g1, _, g3, _⟩ := fwd h m h1
      exact ⟨m', g1, g3.trans h2⟩
  · intro i m' hi
    obtain ⟨m, h1, h2, h3, h4, h5, h6, h7⟩ := bwd i m' hi
    obtain ⟨k0, a1, a2, a3, a4⟩ := r.node i m h1
    dsimp only
    by_cases e : id = i
    · subst e
      rw [hk] at a1
      cases a1
      exact ⟨{ k with deleted := true }, by rw [List.getElem?_set, if_pos rfl, if_pos hlt], h5.trans a2, h2.trans a3, h7 rfl⟩
    · exact ⟨k0, by rw [List.getElem?_set, if_neg e]; exact a1, h5.trans a2, h2.trans a3, (h6 (fun x => e x.symm)).trans a4⟩
  · intro i k' hk' hu
    obtain ⟨k0, h1, h2, h3, _, h4⟩ := hset i k' hk'
    rw [h2, h3]
    refine (r.kept i k0 h1 ?_).mono (fun j m hj => ?_)
    · rcases hu with hu | hu
      · exact Or.inl (h4 hu).2
      · exact Or.inr hu
    · obtain ⟨m', g1, g2, g3, g4, _⟩ := fwd j m hj
      exact ⟨m', g1, g2, g3, g4⟩
  · intro k' hk'
    rcases Option.eq_none_or_eq_some s.cur with hc | ⟨i, hc⟩
    · unfold Spec.current at hk'; dsimp only at hk'; rw [hc] at hk'; cases hk'
    · have hk2 : (s.chks.set id { k with deleted := true })[i]? = some k' := by
        unfold Spec.current at hk'; dsimp only at hk'; rw [hc] at hk'; exact hk'
      obtain ⟨k0, h1, h2, _⟩ := hset i k' hk2
      rw [h2]
      exact r.clean k0 (by unfold Spec.current; rw [hc]; exact h1)
  · dsimp only
    rw [List.countP_set hlt, hget, r.alive]
    simp [hal]
  · dsimp only
    rw [List.countP_set hlt, hget, r.snaps, hs]
    simp [hal]
  · dsimp only
    have h1 : deadCnt (upd c.chk id (some { n with deleted := true })) c.next = deadCnt c.chk c.next + 1 := by
      apply countP_range_change (r.tree.lt id n hn)
      · unfold isDead; rw [vi]
      · unfold isDead; rw [hn]; exact hdel
      · intro i hi; unfold isDead; rw [vo i hi]
    rw [h1, r.dead]
  · intro hl i hi
    have l := r.lin hl i hi
    refine ⟨?_, ?_⟩
    · intro j m' p x hj hp hx1 hx2
      obtain ⟨m, h1, h2, h3, _⟩ := bwd j m' hj
      have := l.gap j m p x h1 (by rw [← h3]; exact hp) hx1 hx2
      have hxi : x ≠ id := by intro e; subst e; rw [hn] at this; cases this
      dsimp only
      rw [vo x hxi, this]
    · intro j m' hj
      obtain ⟨m, h1, _⟩ := bwd j m' hj
      exact l.top j m h1

theorem delete_rep {cf : List Cfg} {c : CP} {s : Spec} (r : Rep cf c s) (id : Nat) (hu : s.usable id = true)
    (hs : s.loaded = false ∨ ∀ i, s.cur = some i → s.alive i = true) :
    Rep cf (c.delete id).1 (s.step (.delete id)).1 ∧ (c.delete id).2 = (s.step (.delete id)).2 := by
  unfold CP.delete Spec.step
  dsimp only
  rcases usable_cases hu with ⟨k, hk, hal⟩ | hk
  · obtain ⟨n, hn, e1, e2, e3⟩ := r.inUse hk (Or.inl hal)
    have hdel : n.deleted = false := e3.trans hal
    have r' := flag_rep r hk hal hn e2 hdel
    rw [hk, hn]
    dsimp only
    rw [hdel]
    simp only [Bool.false_eq_true, if_false]
    obtain ⟨n', hn', _⟩ : ∃ n', upd c.chk id (some { n with deleted := true }) id = some n' ∧ n'.deleted = true :=
      ⟨{ n with deleted := true }, by simp [upd], rfl⟩
    obtain ⟨chk', dead', q1, q2, q3⟩ := cleanup_spec (cf := cf) (cur := c.cur) (d := id) r'.tree hn' r'.dead (by
      intro x hx
      by_cases e : x = id
      · exact Or.inr (Or.inr e)
      · rw [r.cur] at hx
        rcases hs with h | h
        · refine Or.inr (Or.inl ⟨r'.lin h x hx, ?_⟩)
          have hlen := List.getElem?_eq_some_iff.1 hk |>.1
          obtain ⟨i, kx, a1, a2⟩ := r.curSome (by omega)
          rw [hx] at a1
          cases a1
          obtain ⟨m, hm, _⟩ := r.inUse a2 (Or.inr hx)
          exact ⟨m, by dsimp only; rw [upd_other _ _ e]; exact hm⟩
        · left
          have ha := h x hx
          unfold Spec.alive at ha
          rcases Option.eq_none_or_eq_some s.chks[x]? with hkx | ⟨kx, hkx⟩
          · rw [hkx] at ha; cases ha
          · rw [hkx] at ha
            have hax : kx.deleted = false := by simpa using ha
            obtain ⟨m, hm, _, _, hd⟩ := r.inUse hkx (Or.inl hax)
            exact ⟨m, by dsimp only; rw [upd_other _ _ e]; exact hm, hd.trans hax⟩)
    dsimp only at q1
    rw [q1]
    exact ⟨r'.shrink q2 q3, rfl⟩
  · rw [hk, r.absent hk]
    exact ⟨r, rfl⟩

theorem rep_step (cf : List Cfg) (c : CP) (s : Spec) (o : Op) (r : Rep cf c s) (hl : s.legal o) :
    Rep cf (c.step o).1 (s.step o).1 ∧ (c.step o).2 = (s.step o).2 := by
  cases o with
  | access k o =>
    obtain ⟨h1, h2⟩ := hl
    unfold CP.step Spec.step
    dsimp only
    rcases Option.eq_none_or_eq_some c.ads[k]? with hm | ⟨m, hm⟩
    · rw [hm, r.ads.none hm]; exact ⟨r, rfl⟩
    · obtain ⟨sp, hsp, rm⟩ := r.ads.get hm
      rw [hm, hsp]
      rw [hsp] at h1
      dsimp only at h1 ⊢
      obtain ⟨g1, g2⟩ := ArchData.rep_step m sp o rm h1
      refine ⟨⟨r.ads.set k g1, ?_, r.next, r.now, r.thresh, r.cur, r.head, r.curNone, r.curSome, r.tree, r.node, r.kept, ?_, r.alive, r.snaps, r.dead, r.lin⟩, by rw [g2]⟩
      · refine r.ofs.set_right k (fun f hf => ?_)
        obtain ⟨sp', b1, b2⟩ := r.ofs.get hf
        rw [hsp] at b1
        cases b1
        exact ofS_step b2 o
      · intro kc hkc
        have hkc' : s.current = some kc := hkc
        have hcl := r.clean kc hkc'
        have hw : isWipe o = false := by
          cases hw : isWipe o with
          | false => rfl
          | true =>
            have := h2 hw
            have hcn := r.curNone (by rw [this]; rfl)
            unfold Spec.current at hkc'
            rw [hcn] at hkc'
            cases hkc'
        refine hcl.set_left k (fun g hg => ?_)
        obtain ⟨g', b1, b2⟩ := hcl.get hm
        rw [hg] at b1
        cases b1
        refine cleanAt_step rm.wf o hw ?_ b2
        intro a bs e
        subst e
        exact h1
  | poke => exact hl.elim
  | tick t => exact ⟨⟨r.ads, r.ofs, r.next, rfl, r.thresh, r.cur, r.head, r.curNone, r.curSome, r.tree, r.node, r.kept, r.clean, r.alive, r.snaps, r.dead, r.lin⟩, rfl⟩
  | createHead =>
    unfold CP.step Spec.step
    dsimp only
    by_cases h0 : s.chks = []
    · rw [if_pos h0]
      obtain ⟨c', h1, _, h2⟩ := newHead_rep r (by rw [h0]; rfl)
      rw [h1]
      exact ⟨h2, rfl⟩
    · rw [if_neg h0]
      have hne : s.chks.length ≠ 0 := fun h => h0 (List.length_eq_zero_iff.1 h)
      unfold CP.createHead
      rw [r.head, if_neg hne]
      exact ⟨r, rfl⟩
  | create force =>
    show Rep cf (c.create force).1 (Spec.create _ force).1 ∧ (c.create force).2 = (Spec.create _ force).2
    unfold CP.create
    by_cases h0 : s.chks = []
    · rw [if_pos h0]
      obtain ⟨c', h1, _, h2⟩ := newHead_rep r (by rw [h0]; rfl)
      rw [r.head, if_pos (by rw [h0]; rfl), h1]
      exact create_rep h2 (by simp [Spec.add]) force
    · rw [if_neg h0]
      have hne : s.chks.length ≠ 0 := fun h => h0 (List.length_eq_zero_iff.1 h)
      rw [r.head, if_neg hne]
      exact create_rep r hne force
  | load id => exact load_rep r id hl
  | delete id => exact delete_rep r id hl.1 hl.2
  | has id =>
    refine ⟨r, ?_⟩
    show Res.yes _ = Res.yes _
    rcases usable_cases hl with ⟨k, hk, hal⟩ | hk
    · obtain ⟨n, hn, _⟩ := r.inUse hk (Or.inl hal)
      unfold Spec.alive
      rw [hn, hk]; dsimp only; rw [hal]; rfl
    · unfold Spec.alive
      rw [r.absent hk, hk]; rfl
  | list =>
    refine ⟨r, ?_⟩
    show Res.ids _ = Res.ids _
    unfold CP.list
    rw [r.next]
    congr 1
    apply List.filter_congr
    intro i hi
    unfold Spec.alive
    rcases Option.eq_none_or_eq_some s.chks[i]? with hk | ⟨k, hk⟩
    · rw [hk, r.absent hk]
    · rw [hk]
      rcases Option.eq_none_or_eq_some (c.chk i) with hn | ⟨n, hn⟩
      · rw [hn]
        cases hd : k.deleted with
        | true => simp [hd]
        | false => obtain ⟨n, h1, _⟩ := r.inUse hk (Or.inl hd); rw [hn] at h1; cases h1
      · obtain ⟨k', h1, _, _, h4⟩ := r.node i n hn
        rw [hk] at h1
        cases h1
        rw [hn]
        dsimp only
        rw [h4]
  | listAt t =>
    refine ⟨r, ?_⟩
    show Res.ids _ = Res.ids _
    unfold CP.listAt
    rw [r.next]
    congr 1
    apply List.filter_congr
    intro i hi
    rcases Option.eq_none_or_eq_some s.chks[i]? with hk | ⟨k, hk⟩
    · rw [hk, r.absent hk]
    · rw [hk]
      rcases Option.eq_none_or_eq_some (c.chk i) with hn | ⟨n, hn⟩
      · rw [hn]
        cases hd : k.deleted with
        | true => simp [hd]
        | false => obtain ⟨n, h1, _⟩ := r.inUse hk (Or.inl hd); rw [hn] at h1; cases h1
      · obtain ⟨k', h1, h2, _, h4⟩ := r.node i n hn
        rw [hk] at h1
        cases h1
        rw [hn]
        dsimp only
        rw [h4, h2]
  | counts => exact ⟨r, by show Res.nums _ _ = Res.nums _ _; rw [r.alive, r.snaps]⟩
  | chain => exact hl.elim
  | forgetCurrent =>
    have h0 : s.chks.length = 0 := by rw [show s.chks = [] from hl]; rfl
    have hh : c.head = none := by rw [r.head, if_pos h0]
    have e : ({ c with cur := match c.head with | some h => some h | none => c.cur } : CP) = c := by
      obtain ⟨a1, a2, a3, a4, a5, a6, a7, a8, a9, a10⟩ := c
      dsimp only at hh ⊢
      subst hh
      rfl
    show Rep cf ({ c with cur := match c.head with | some h => some h | none => c.cur } : CP) s ∧ _
    rw [e]
    exact ⟨r, rfl⟩
  | setThreshold n => exact ⟨⟨r.ads, r.ofs, r.next, r.now, rfl, r.cur, r.head, r.curNone, r.curSome, r.tree, r.node, r.kept, r.clean, r.alive, r.snaps, r.dead, r.lin⟩, rfl⟩

/-- configuration of a specified memory -/
def cfgOf (a : ArchData.Spec) : Cfg := ⟨a.lsb, a.fill, a.fsz, a.size⟩

theorem rep_init {ads : List AD} {sp : List ArchData.Spec} (h : All2 ArchData.Rep ads sp) :
    Rep (sp.map cfgOf) (CP.init ads) (Spec.init sp) := by
  refine ⟨h, ?_, rfl, rfl, rfl, rfl, rfl, fun _ => rfl, fun h => absurd rfl h, ?_, ?_, ?_, ?_, rfl, rfl, rfl, ?_⟩
  · clear h
    induction sp with
    | nil => trivial
    | cons a sp ih => exact ⟨⟨rfl, rfl, rfl, rfl⟩, ih⟩
  · refine ⟨?_, ?_, ?_, ?_, ?_, ?_⟩
    · intro i n h; cases h
    · intro i n p h; cases h
    · intro i n x h; cases h
    · intro i n h; cases h
    · intro i n h; cases h
    · intro h hh; cases hh
  · intro i n h; cases h
  · intro i k hk; simp [Spec.init] at hk
  · intro k hk; cases hk
  · intro _ i hi; cases hi

end Sparta.Checkpoint
