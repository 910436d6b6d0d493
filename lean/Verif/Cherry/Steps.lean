import Verif.Cherry.Paths
/-! Calls of the checkpointer other than committing preserve the relation. -/
namespace Sparta.Cherry
open Sparta.Checkpoint
open Sparta.ArchData (AD)

/-- with no checkpoint flagged deleted, nothing is cleaned up -/
theorem cleanup_none {cur head : Option Nat} {next dead d : Nat} {chk : Map} {n : Node} (h0 : 0 < next) (hd : chk d = some n)
    (ha : ∀ i m, chk i = some m → m.deleted = false) (hp : ∀ p, n.prev = some p → ∃ m, chk p = some m) :
    cleanup cur head next chk dead d = some (chk, dead) := by
  have loop : ∀ x, (∀ y, x = some y → ∃ m, chk y = some m) → cleanupLoop cur head next chk dead x next = some (chk, dead) := by
    intro x hx
    cases x with
    | none => unfold cleanupLoop; rfl
    | some y =>
      obtain ⟨m, hm⟩ := hx y rfl
      obtain ⟨f, rfl⟩ : ∃ f, next = f + 1 := ⟨next - 1, by omega⟩
      unfold cleanupLoop
      rw [hm]
      dsimp only
      rw [ha y m hm]
      by_cases c1 : head = some y
      · rw [if_pos c1]
      · rw [if_neg c1, if_pos rfl]
  unfold cleanup
  by_cases c1 : head = some d
  · rw [if_pos c1]
  rw [if_neg c1, hd]
  dsimp only
  by_cases c2 : cur = some d ∨ findAlive chk cur next d = true
  · rw [if_pos c2]
    cases n.snap with
    | true => exact loop n.prev hp
    | false => rfl
  · rw [if_neg c2]
    exact loop (some d) (fun y hy => by cases hy; exact ⟨n, hd⟩)

theorem Rep.cleanup {cf : List Cfg} {c : CP} {s : Spec} (r : Rep cf c s) {d dead : Nat} {n : Node} (hd : c.chk d = some n)
    (cur : Option Nat) : cleanup cur c.head c.next c.chk dead d = some (c.chk, dead) := by
  have := r.tree.lt d n hd
  refine cleanup_none (by omega) hd (fun i m hm => ?_) (fun p hp => ?_)
  · obtain ⟨k, _, o⟩ := r.back hm
    exact o.alive
  · obtain ⟨_, m, hm, _⟩ := r.tree.prevOk d n p hd hp
    exact ⟨m, hm⟩

/-! ### a first checkpoint -/

theorem ids_add {s : Spec} {snap : Bool} {dist : Nat} {path : List Nat} :
    (s.add snap dist path).ids = s.ids ++ [s.next] := by
  unfold Spec.ids Spec.add
  dsimp only
  rw [List.range_succ, List.filter_append]
  congr 1
  · apply List.filter_congr
    intro i hi
    rw [List.mem_range] at hi
    rw [upd_other _ _ (by omega)]
  · simp [upd]

theorem isSnap_add {s : Spec} {snap : Bool} {dist : Nat} {path : List Nat} (i : Nat) :
    (s.add snap dist path).isSnap i = if i = s.next then snap else s.isSnap i := by
  unfold Spec.isSnap Spec.add
  dsimp only
  by_cases h : i = s.next
  · rw [if_pos h, h]; simp [upd]
  · rw [if_neg h, upd_other _ _ h]

theorem snapCount_add {s : Spec} {snap : Bool} {dist : Nat} {path : List Nat} :
    (s.add snap dist path).snapCount = s.snapCount + if snap then 1 else 0 := by
  unfold Spec.snapCount
  rw [ids_add, List.countP_append, List.countP_singleton]
  congr 1
  · apply List.countP_congr
    intro i hi
    unfold Spec.ids at hi
    rw [List.mem_filter, List.mem_range] at hi
    rw [isSnap_add, if_neg (by omega)]
  · rw [isSnap_add, if_pos rfl]

theorem ids_empty {s : Spec} (h : ∀ i, s.chks i = none) : s.ids = [] := by
  unfold Spec.ids
  rw [List.filter_eq_nil_iff]
  intro i _
  rw [h i]
  simp

theorem head_rep {cf : List Cfg} {c : CP} {s : Spec} (b : Base cf c s) (h1 : c.chk = fun _ => none) (h2 : ∀ i, s.chks i = none)
    (ha : c.alive = s.lost) (hs : c.snaps = s.lostSnaps) :
    ∃ c', c.newNode none true = some c' ∧ Rep cf { c' with head := some c.next } (s.add true 0 []) := by
  obtain ⟨recss, b1, b2, b3, b4, b5, b6⟩ := store_spec true cf c.ads [] b.good (fun h => by cases h)
  simp only [if_true] at b6
  generalize hnode : (⟨none, [], true, false, c.now, (store true c.ads).2⟩ : Node) = nd
  have hcall : c.newNode none true = some { c with ads := (store true c.ads).1, next := c.next + 1, cur := some c.next, alive := c.alive + 1, snaps := c.snaps + 1, chk := upd c.chk c.next (some nd) } := by
    unfold CP.newNode
    simp only [if_true, hnode]
  refine ⟨_, hcall, ?_⟩
  have hv : upd c.chk c.next (some nd) c.next = some nd := by simp [upd]
  have ho : ∀ i m, upd c.chk c.next (some nd) i = some m → i = c.next ∧ m = nd := by
    intro i m hi
    by_cases e : i = c.next
    · subst e; rw [hv] at hi; cases hi; exact ⟨rfl, rfl⟩
    · rw [upd_other _ _ e, h1] at hi; cases hi
  have hsv : (s.add true 0 []).chks s.next = some ⟨s.mems, s.now, true, 0, [s.next]⟩ := by simp [Spec.add, upd]
  have hso : ∀ i, i ≠ s.next → (s.add true 0 []).chks i = none := by
    intro i e; simp only [Spec.add]; rw [upd_other _ _ e, h2]
  refine ⟨⟨rep_sameAll b.ads b4 b3 b5, b.ofs, by simp only [Spec.add]; rw [b.next], b.now, b.thresh⟩, by simp only [Spec.add]; rw [b.next], fun h => (by cases h), ?_, ?_, ?_, ?_, ?_, ?_, ?_⟩
  · intro i hi
    have : s.next = i := by injection hi
    subst this
    exact ⟨_, _, hsv, rfl⟩
  · refine ⟨?_, ?_, ?_, ?_, ?_, ?_⟩
    · intro i m hi; have := (ho i m hi).1; show i < c.next + 1; omega
    · intro i m p hi hp; rw [(ho i m hi).2, ← hnode] at hp; cases hp
    · intro i m x hi hx; rw [(ho i m hi).2, ← hnode] at hx; cases hx
    · intro i m hi; rw [(ho i m hi).2, ← hnode]; exact List.nodup_nil
    · intro i m hi _; obtain ⟨a, b⟩ := ho i m hi; rw [a, b, ← hnode]; exact ⟨rfl, rfl⟩
    · intro h hh; cases hh; exact ⟨_, hv, by rw [← hnode]⟩
  · intro i
    by_cases e : i = c.next
    · subst e
      constructor
      · intro h; have h' : upd c.chk c.next (some nd) c.next = none := h; rw [hv] at h'; cases h'
      · intro h; rw [b.next, hsv] at h; cases h
    · constructor
      · intro _; exact hso i (by rw [← b.next]; exact e)
      · intro _; show upd c.chk c.next (some nd) i = none; rw [upd_other _ _ e, h1]
  · intro i n k hi hk
    obtain ⟨e1, e2⟩ := ho i n hi
    rw [e1, b.next, hsv] at hk
    cases hk
    rw [e1, e2]
    refine ⟨by rw [← hnode]; exact b.now, by rw [← hnode], by rw [← hnode], ?_, fun _ => by rw [b.next], fun p hp => by rw [← hnode] at hp; cases hp⟩
    dsimp only
    rw [b.mems, b6]
    exact .snap hv (by rw [← hnode]) (by rw [← hnode]; exact b1) b2
  · intro k hk
    have : (s.add true 0 []).chks s.next = some k := hk
    rw [hsv] at this
    cases this
    dsimp only
    rw [b.mems, ← b5]
    exact cleanAt_self _
  · dsimp only
    rw [ids_add, ids_empty h2, ha]
    show s.lost + 1 = 0 + 1 + s.lost
    omega
  · dsimp only
    rw [snapCount_add, hs]
    unfold Spec.snapCount
    rw [ids_empty h2]
    show s.lostSnaps + 1 = 0 + 1 + s.lostSnaps
    omega

/-! ### a further checkpoint -/

theorem node_rep {cf : List Cfg} {c : CP} {s : Spec} (r : Rep cf c s) {p : Nat} {k : Chk} (hcur : s.cur = some p)
    (hk : s.chks p = some k) (htick : k.tick ≤ s.now) (snap : Bool) :
    ∃ c', c.newNode (some p) snap = some c' ∧ c'.cur = some c.next ∧ (∃ n, c'.chk c.next = some n) ∧ c'.next = c.next + 1 ∧
      Rep cf c' (s.add snap (if snap then 0 else k.dist + 1) k.path) := by
  obtain ⟨pn, hpn, o⟩ := r.get hk
  have hlt := r.tree.lt p pn hpn
  have hbase := r.clean k (by unfold Spec.current; rw [hcur]; exact hk)
  obtain ⟨recss, b1, b2, b3, b4, b5, b6⟩ := store_spec snap cf c.ads k.mems r.good (fun _ => hbase)
  have hnot : c.next ∉ pn.nexts := by
    intro h
    obtain ⟨m, hm, _⟩ := r.tree.nextOk p pn c.next hpn h
    have := r.tree.lt _ _ hm
    omega
  obtain ⟨_, h, _, hhead⟩ := r.curSome p hcur
  have hmem := r.mems
  generalize hnode : (⟨some p, [], snap, false, c.now, (store snap c.ads).2⟩ : Node) = nd
  have hstep : c.newNode (some p) snap = some ⟨(store snap c.ads).1, added c.chk c.next p pn nd,
      c.head, some c.next, c.next + 1, c.thresh, c.alive + 1, c.snaps + (if snap then 1 else 0), c.dead, c.now⟩ := by
    unfold CP.newNode
    dsimp only
    rw [hpn]
    dsimp only
    rw [if_neg (by rintro (h | h); · rw [r.now, o.tick] at h; omega
                   · exact hnot h), ← hnode]
    rfl
  have hkeep : ∀ i m, c.chk i = some m → ∃ n', added c.chk c.next p pn nd i = some n' ∧ n'.snap = m.snap ∧ n'.prev = m.prev ∧ n'.data = m.data := by
    intro i m hi
    have := r.tree.lt i m hi
    by_cases e : i = p
    · subst e
      rw [hpn] at hi
      cases hi
      exact ⟨{ pn with nexts := pn.nexts ++ [c.next] }, by unfold added; rw [upd_other _ _ (by omega)]; simp [upd], rfl, rfl, rfl⟩
    · exact ⟨m, by unfold added; rw [upd_other _ _ (by omega), upd_other _ _ e]; exact hi, rfl, rfl, rfl⟩
  have hnew : added c.chk c.next p pn nd c.next = some nd := by simp [added, upd]
  have hback : ∀ i m, added c.chk c.next p pn nd i = some m → i ≠ c.next → ∃ m0, c.chk i = some m0 ∧
      m.tick = m0.tick ∧ m.snap = m0.snap ∧ m.deleted = m0.deleted ∧ m.prev = m0.prev := by
    intro i m hi e
    by_cases e2 : i = p
    · subst e2
      have : added c.chk c.next i pn nd i = some { pn with nexts := pn.nexts ++ [c.next] } := by
        unfold added; rw [upd_other _ _ e]; simp [upd]
      rw [this] at hi
      cases hi
      exact ⟨pn, hpn, rfl, rfl, rfl, rfl⟩
    · unfold added at hi
      rw [upd_other _ _ e, upd_other _ _ e2] at hi
      exact ⟨m, hi, rfl, rfl, rfl, rfl⟩
  have hsv : (s.add snap (if snap then 0 else k.dist + 1) k.path).chks s.next =
      some ⟨s.mems, s.now, snap, if snap then 0 else k.dist + 1, k.path ++ [s.next]⟩ := by simp [Spec.add, upd]
  have hso : ∀ i, i ≠ s.next → (s.add snap (if snap then 0 else k.dist + 1) k.path).chks i = s.chks i := by
    intro i e; simp only [Spec.add]; rw [upd_other _ _ e]
  have hold : ∀ i k, s.chks i = some k → i ≠ s.next := by
    intro i k hi e
    obtain ⟨n, hn, _⟩ := r.get hi
    have := r.tree.lt i n hn
    rw [r.next] at this
    omega
  refine ⟨_, hstep, rfl, ⟨_, hnew⟩, rfl, ?_⟩
  refine ⟨⟨rep_sameAll r.ads b4 b3 b5, r.ofs, by simp only [Spec.add]; rw [r.next], r.now, r.thresh⟩, by simp only [Spec.add]; rw [r.next], fun h => (by cases h), ?_, ?_, ?_, ?_, ?_, ?_, ?_⟩
  · intro i hi
    have : s.next = i := by injection hi
    subst this
    exact ⟨_, h, hsv, hhead⟩
  · exact added_tree r.tree hpn (by rw [← hnode]) (by rw [← hnode]) (by rw [← hnode]; dsimp only; rw [o.tick, r.now]; exact htick)
  · intro i
    dsimp only
    by_cases e : i = c.next
    · subst e
      rw [hnew, r.next, hsv]
      simp
    · rw [hso i (by rw [← r.next]; exact e), ← r.absent i]
      constructor
      · intro h
        rcases Option.eq_none_or_eq_some (c.chk i) with h0 | ⟨m, h0⟩
        · exact h0
        · obtain ⟨n', h1, _⟩ := hkeep i m h0
          rw [h] at h1; cases h1
      · intro h
        rcases Option.eq_none_or_eq_some (added c.chk c.next p pn nd i) with h0 | ⟨m, h0⟩
        · exact h0
        · obtain ⟨n', h1, _⟩ := hback i m h0 e
          rw [h] at h1; cases h1
  · intro i n k0 hi h0
    dsimp only at hi ⊢
    by_cases e : i = c.next
    · subst e
      rw [hnew] at hi
      cases hi
      rw [r.next, hsv] at h0
      cases h0
      refine ⟨by rw [← hnode]; exact r.now, by rw [← hnode], by rw [← hnode], ?_, fun h => (by rw [← hnode] at h; cases h), ?_⟩
      · dsimp only
        rw [hmem, b6]
        cases snap with
        | true => simp only [if_true]; exact .snap hnew (by rw [← hnode]) (by rw [← hnode]; exact b1) b2
        | false =>
          simp only [Bool.false_eq_true, if_false]
          exact .delta hnew (by rw [← hnode]) (by rw [← hnode]) hlt (by rw [← hnode]; exact b1) b2 (o.holds.mono hkeep)
      · intro q hq
        rw [← hnode] at hq
        have : p = q := by injection hq
        subst this
        exact ⟨k, by rw [hso p (hold p k hk)]; exact hk, by rw [r.next]⟩
    · obtain ⟨m0, h1, g1, g2, g3, g4⟩ := hback i n hi e
      rw [hso i (by rw [← r.next]; exact e)] at h0
      have oo := r.node i m0 k0 h1 h0
      refine ⟨g1.trans oo.tick, g2.trans oo.snap, g3.trans oo.alive, oo.holds.mono hkeep, fun h => oo.first (by rw [← g4]; exact h), ?_⟩
      intro q hq
      obtain ⟨kq, a1, a2⟩ := oo.later q (by rw [← g4]; exact hq)
      exact ⟨kq, by rw [hso q (hold q kq a1)]; exact a1, a2⟩
  · intro k0 h0
    have : (s.add snap (if snap then 0 else k.dist + 1) k.path).chks s.next = some k0 := h0
    rw [hsv] at this
    cases this
    dsimp only
    rw [hmem, ← b5]
    exact cleanAt_self _
  · dsimp only
    rw [ids_add, r.alive, List.length_append]
    show s.ids.length + s.lost + 1 = s.ids.length + 1 + s.lost
    omega
  · dsimp only
    rw [snapCount_add, r.snaps]
    show s.snapCount + s.lostSnaps + _ = s.snapCount + _ + s.lostSnaps
    omega

theorem create_rep {cf : List Cfg} {c : CP} {s : Spec} (r : Rep cf c s) (hne : s.cur ≠ none) (force : Bool) :
    Rep cf (c.create_ force).1 (s.create force).1 ∧ (c.create_ force).2 = (s.create force).2 := by
  obtain ⟨p, hcur⟩ : ∃ p, s.cur = some p := by
    cases h : s.cur with
    | none => exact absurd h hne
    | some p => exact ⟨p, rfl⟩
  obtain ⟨k, h, hk, hhead⟩ := r.curSome p hcur
  obtain ⟨pn, hpn, o⟩ := r.get hk
  have htree := r.tree
  rw [hhead] at htree
  obtain ⟨hn, hhn, _⟩ := htree.headIn h rfl
  have htk := head_tick htree hhn p pn hpn
  have e1 := o.tick
  have hs : s.create force = if s.next = unidentified then (s, Checkpoint.Res.threw) else if s.now < k.tick then (s, .threw)
      else (s.add (force || decide (k.dist ≥ s.thresh)) (if (force || decide (k.dist ≥ s.thresh)) then 0 else k.dist + 1) k.path,
        .created s.next (force || decide (k.dist ≥ s.thresh))) := by
    unfold Spec.create Spec.current
    rw [hcur]
    simp only [Option.bind_some, hk]
  rw [hs]
  unfold CP.create_
  rw [r.next]
  by_cases c1 : s.next = unidentified
  · rw [if_pos c1, if_pos c1]; exact ⟨r, rfl⟩
  rw [if_neg c1, if_neg c1, hhead]
  simp only [Option.bind_some, hhn]
  by_cases c2 : s.now < k.tick
  · rw [if_pos c2]
    by_cases c3 : c.now < hn.tick
    · rw [if_pos c3]; exact ⟨r, rfl⟩
    · rw [if_neg c3, r.cur, hcur]
      simp only [hpn]
      rw [if_pos (by rw [r.now, e1]; exact c2)]
      exact ⟨r, rfl⟩
  · rw [if_neg c2, if_neg (by rw [r.now]; omega), r.cur, hcur]
    simp only [hpn]
    rw [if_neg (by rw [r.now, e1]; exact c2)]
    obtain ⟨ns, _, hdist, _⟩ := o.holds.load (p + 1) (by omega)
    rw [hdist, r.thresh]
    dsimp only
    generalize (force || decide (k.dist ≥ s.thresh)) = snap
    obtain ⟨c', h1, h2, ⟨n, h4⟩, h3, r'⟩ := node_rep r hcur hk (by omega) snap
    rw [h1]
    dsimp only
    cases snap with
    | false => simp only [Bool.false_eq_true, if_false]; exact ⟨r', trivial⟩
    | true =>
      simp only [if_true] at r' ⊢
      rw [← r.next, r'.cleanup h4 c'.cur]
      exact ⟨r', rfl⟩

theorem load_rep {cf : List Cfg} {c : CP} {s : Spec} (r : Rep cf c s) (id : Nat) :
    Rep cf (c.load id).1 (s.base (.load id)).1 ∧ (c.load id).2 = (s.base (.load id)).2 := by
  unfold CP.load Spec.base
  dsimp only
  rcases Option.eq_none_or_eq_some (s.chks id) with hk | ⟨k, hk⟩
  · rw [hk, (r.absent id).2 hk]
    exact ⟨r, rfl⟩
  · rw [hk]
    obtain ⟨n, hn, o⟩ := r.get hk
    obtain ⟨ns, b1, _, b3⟩ := o.holds.load (id + 1) (by omega)
    obtain ⟨ads', c1, c2, c3, c4⟩ := b3 c.ads r.good
    have hne : s.cur ≠ none := fun h => by rw [(r.curNone h).2 id] at hk; cases hk
    obtain ⟨p, hcur⟩ : ∃ p, s.cur = some p := by
      cases h : s.cur with
      | none => exact absurd h hne
      | some p => exact ⟨p, rfl⟩
    obtain ⟨kp, h, hkp, hhead⟩ := r.curSome p hcur
    obtain ⟨pn, hpn, _⟩ := r.get hkp
    rw [hn]
    dsimp only
    have hl : Checkpoint.load c.chk id c.ads = some ads' := by
      unfold Checkpoint.load
      rw [b1]
      exact c1
    rw [hl]
    dsimp only
    rw [r.cur, hcur]
    dsimp only
    rw [r.cleanup hpn]
    refine ⟨⟨⟨rep_setMems r.ads c3 c2 c4, ofS_setMems r.ofs (by rw [o.holds.length, r.ofs.length]), r.next, o.tick, r.thresh⟩, rfl,
      fun h => (by cases h), ?_, r.tree, r.absent, r.node, ?_, r.alive, r.snaps⟩, rfl⟩
    · intro i hi
      cases hi
      exact ⟨k, h, hk, hhead⟩
    · intro k0 h0
      have h0' : s.chks id = some k0 := h0
      rw [hk] at h0'
      cases h0'
      dsimp only
      rw [← c4]
      exact cleanAt_self _

theorem base_step {cf : List Cfg} {c : CP} {s : Spec} (o : Checkpoint.Op) (r : Rep cf c s) (hl : s.legal (.base o)) :
    Rep cf (c.step o).1 (s.base o).1 ∧ (c.step o).2 = (s.base o).2 := by
  cases o with
  | access k o =>
    obtain ⟨h1, h2⟩ := hl
    unfold CP.step Spec.base
    dsimp only
    rcases Option.eq_none_or_eq_some c.ads[k]? with hm | ⟨m, hm⟩
    · rw [hm, r.ads.none hm]; exact ⟨r, rfl⟩
    · obtain ⟨sp, hsp, rm⟩ := r.ads.get hm
      rw [hm, hsp]
      rw [hsp] at h1
      dsimp only at h1 ⊢
      obtain ⟨g1, g2⟩ := ArchData.rep_step m sp o rm h1
      refine ⟨⟨⟨r.ads.set k g1, ?_, r.next, r.now, r.thresh⟩, r.cur, r.curNone, r.curSome, r.tree, r.absent, r.node, ?_, r.alive, r.snaps⟩, by rw [g2]⟩
      · refine r.ofs.set_right k (fun f hf => ?_)
        obtain ⟨sp', b1, b2⟩ := r.ofs.get hf
        rw [hsp] at b1
        cases b1
        exact ofS_step b2 o
      · intro kc hkc
        have hkc' : s.current = some kc := hkc
        have hcl := r.clean kc hkc'
        have hw : isWipe o = false := by
          cases hw : isWipe o with
          | false => rfl
          | true =>
            unfold Spec.current at hkc'
            rw [h2 hw] at hkc'
            cases hkc'
        refine hcl.set_left k (fun g hg => ?_)
        obtain ⟨g', b1, b2⟩ := hcl.get hm
        rw [hg] at b1
        cases b1
        refine cleanAt_step rm.wf o hw ?_ b2
        intro a bs e
        subst e
        exact h1
  | tick t => exact ⟨⟨⟨r.ads, r.ofs, r.next, rfl, r.thresh⟩, r.cur, r.curNone, r.curSome, r.tree, r.absent, r.node, r.clean, r.alive, r.snaps⟩, rfl⟩
  | createHead =>
    unfold CP.step Spec.base CP.createHead
    dsimp only
    by_cases h0 : s.cur = none
    · obtain ⟨a1, a2⟩ := r.curNone h0
      obtain ⟨c', h1, h2⟩ := head_rep r.toBase (funext fun i => (r.absent i).2 (a2 i)) a2
        (by rw [r.alive, ids_empty a2]; simp) (by rw [r.snaps, Spec.snapCount, ids_empty a2]; simp)
      rw [if_pos h0, a1, h1]
      exact ⟨h2, rfl⟩
    · rw [if_neg h0]
      cases hc : s.cur with
      | none => exact absurd hc h0
      | some p =>
        obtain ⟨_, h, _, hh⟩ := r.curSome p hc
        rw [hh]
        exact ⟨r, rfl⟩
  | create force =>
    show Rep cf (c.create force).1 (Spec.create _ force).1 ∧ (c.create force).2 = (Spec.create _ force).2
    unfold CP.create CP.createHead
    by_cases h0 : s.cur = none
    · obtain ⟨a1, a2⟩ := r.curNone h0
      obtain ⟨c', h1, h2⟩ := head_rep r.toBase (funext fun i => (r.absent i).2 (a2 i)) a2
        (by rw [r.alive, ids_empty a2]; simp) (by rw [r.snaps, Spec.snapCount, ids_empty a2]; simp)
      rw [if_pos h0, a1, h1]
      exact create_rep h2 (by simp [Spec.add]) force
    · rw [if_neg h0]
      cases hc : s.cur with
      | none => exact absurd hc h0
      | some p =>
        obtain ⟨_, h, _, hh⟩ := r.curSome p hc
        rw [hh]
        exact create_rep r h0 force
  | load id => exact load_rep r id
  | has id => exact ⟨r, by show Checkpoint.Res.yes _ = .yes _; rw [r.isSome]⟩
  | list =>
    refine ⟨r, ?_⟩
    show Checkpoint.Res.ids _ = .ids _
    rw [← r.live]
    unfold CP.list Cherry.live
    congr 1
    apply List.filter_congr
    intro i _
    rcases Option.eq_none_or_eq_some (c.chk i) with hn | ⟨n, hn⟩
    · rw [hn]; rfl
    · obtain ⟨k, _, o⟩ := r.back hn
      rw [hn]; simp [o.alive]
  | counts => exact ⟨r, by show Checkpoint.Res.nums _ _ = .nums _ _; rw [r.alive, r.snaps]⟩
  | setThreshold n => exact ⟨⟨⟨r.ads, r.ofs, r.next, r.now, rfl⟩, r.cur, r.curNone, r.curSome, r.tree, r.absent, r.node, r.clean, r.alive, r.snaps⟩, rfl⟩
  | _ => exact hl.elim

end Sparta.Cherry
