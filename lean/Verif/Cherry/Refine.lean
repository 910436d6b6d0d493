import Verif.Cherry.Commit
/-! The checkpointer with commits, and the loader, follow their specifications. -/
namespace Sparta.Cherry
open Sparta.Checkpoint
open Sparta.ArchData (AD)

def CRep (cf : List Cfg) (k : Cherry) (s : Spec) : Prop := Rep cf k.cp s ∧ DBOk cf k s.committed

theorem db_cp {cf : List Cfg} {k : Cherry} {comm : List (Nat × List (Nat → UInt8))} (h : DBOk cf k comm) (c : CP) :
    DBOk cf { k with cp := c } comm := ⟨h.wins, h.arch, h.runs, h.some⟩

theorem commit_of {cf : List Cfg} {k : Cherry} {comm comm' : List (Nat × List (Nat → UInt8))} {force : Bool} {c : CP} {s : Spec}
    {l : List Saved} (h : squash k.cp force = some (c, l)) (r : Rep cf c s) (b : Batch cf l comm') (d : DBOk cf k comm)
    (hs : s.committed = comm ++ comm') : CRep cf (k.step (.commit force)).1 s ∧ (k.step (.commit force)).2 = .committed (l.map (·.id)) := by
  unfold Cherry.step
  dsimp only
  rw [h]
  dsimp only
  cases hl : l with
  | nil =>
    have : comm' = [] := by
      have := b.len
      rw [hl] at this
      exact List.length_eq_zero_iff.1 this.symm
    rw [this, List.append_nil] at hs
    exact ⟨⟨r, by rw [hs]; exact db_cp d c⟩, rfl⟩
  | cons x l' =>
    obtain ⟨k', h1, h2, h3⟩ := save_ok (db_cp d c) b (by rw [hl]; simp)
    rw [hl] at h1
    simp only [List.isEmpty_cons, Bool.false_eq_true, if_false, h1]
    exact ⟨⟨by rw [h2]; exact r, by rw [hs]; exact h3⟩, trivial⟩

theorem makeHead_same {chk : Map} {x : Nat} {n : Node} (h : chk x = some n) (hp : n.prev = none) : makeHead chk (some x) = chk := by
  unfold makeHead
  dsimp only
  rw [h]
  funext i
  dsimp only
  by_cases e : i = x
  · subst e
    rw [upd_same _ _ _, h]
    cases n
    dsimp only at hp
    subst hp
    rfl
  · rw [upd_other _ _ e]

theorem batch_nil (cf : List Cfg) : Batch cf [] [] := ⟨rfl, fun _ h => (by cases h), rfl, fun p c h => (by simp at h)⟩

theorem commit_step {cf : List Cfg} {k : Cherry} {s : Spec} (r : CRep cf k s) (force : Bool) :
    CRep cf (k.step (.commit force)).1 (s.commit force).1 ∧ (k.step (.commit force)).2 = (s.commit force).2 := by
  obtain ⟨rc, db⟩ := r
  cases hcur : s.cur with
  | none =>
    have h1 : squash k.cp force = some (k.cp, []) := by unfold squash; rw [rc.cur, hcur]
    have h2 : s.commit force = (s, .committed []) := by unfold Spec.commit Spec.current; rw [hcur]; rfl
    rw [h2]
    exact commit_of h1 rc (batch_nil cf) db (by simp)
  | some cur =>
    obtain ⟨kc, hd, hk, hh⟩ := rc.curSome cur hcur
    obtain ⟨⟨q0, g1⟩, _, g3, g4, ⟨hd', tl', g5, g6⟩, g7⟩ := rc.path cur kc hk
    have hcurrent : s.current = some kc := by unfold Spec.current; rw [hcur]; exact hk
    have hne : kc.path ≠ [] := by rw [g1]; simp
    cases force with
    | true =>
      obtain ⟨l, p1, p2, p3, p4⟩ := batch_of rc hk (q := kc.path) (t := []) (by simp)
      have hsub : ∀ x ∈ kc.path, x ∈ s.ids := by
        intro x hx
        obtain ⟨a, b, e⟩ := List.append_of_mem hx
        obtain ⟨kj, hj, _⟩ := g4 a x b e
        exact rc.mem_ids hj
      have hlen := length_sub kc.path s.ids g3 hsub
      have hsn := countP_sub s.isSnap kc.path s.ids g3 hsub
      have hcd : countDown k.cp kc.path = some { k.cp with alive := k.cp.alive - kc.path.length, snaps := k.cp.snaps - kc.path.countP s.isSnap } := by
        unfold countDown
        rw [rc.isSnap', if_neg (by rw [rc.alive, rc.snaps]; unfold Spec.snapCount; omega)]
      generalize hc0 : ({ k.cp with alive := k.cp.alive - kc.path.length, snaps := k.cp.snaps - kc.path.countP s.isSnap, chk := fun _ => none } : CP) = c0
      generalize hs0 : ({ s with chks := fun _ => none, committed := s.committed ++ kc.path.filterMap s.memsOf, lost := s.lost + (s.ids.length - kc.path.length), lostSnaps := s.lostSnaps + (s.snapCount - kc.path.countP s.isSnap) } : Spec) = s0
      have hb : Base cf c0 s0 := by
        rw [← hc0, ← hs0]
        exact ⟨rc.ads, rc.ofs, rc.next, rc.now, rc.thresh⟩
      obtain ⟨c1, n1, n2⟩ := head_rep hb (by rw [← hc0]) (by rw [← hs0]; intro i; rfl)
        (by rw [← hc0, ← hs0]; dsimp only; rw [rc.alive]; omega)
        (by rw [← hc0, ← hs0]; dsimp only; rw [rc.snaps]; unfold Spec.snapCount; omega)
      have h1 : squash k.cp true = some ({ c1 with head := some c0.next }, l) := by
        unfold squash
        rw [rc.cur, hcur]
        dsimp only
        rw [rc.noDead]
        simp only [Bool.false_eq_true, if_false, if_true, g7, p1, hcd]
        rw [hc0, n1, ← hc0]
        rfl
      have h2 : s.commit true = (s0.add true 0 [], .committed kc.path) := by
        unfold Spec.commit
        rw [hcurrent]
        simp only [if_true]
        rw [← hs0]
        rfl
      rw [h2]
      have := commit_of h1 n2 p4 db (by rw [← hs0]; rfl)
      rw [p2] at this
      exact this
    | false =>
      obtain ⟨q, x, t, e1, e2, e3, e4⟩ := recent_eq (snap := s.isSnap) kc.path hne
      have hx : s.isSnap x = true := e4 ⟨hd', by rw [g5]; exact List.mem_cons_self .., g6⟩
      have hold := older_append e1 e2
      obtain ⟨l, p1, p2, p3, p4⟩ := batch_of rc hk (q := q) (t := x :: t) e1
      obtain ⟨c1, n1, n2⟩ := keep_rep rc hcur hk e1 hx e3 (s.committed ++ q.filterMap s.memsOf)
      have hkeep : c1.head = k.cp.head := by
        unfold countDown at n1
        split at n1
        · cases n1
        · cases n1; rfl
      have h2 : s.commit false = ({ s with chks := fun i => if i ∈ x :: t then (s.chks i).map fun k => { k with path := k.path.filter (· ∈ x :: t) } else none, committed := s.committed ++ q.filterMap s.memsOf }, .committed q) := by
        unfold Spec.commit
        rw [hcurrent]
        simp only [Bool.false_eq_true, if_false]
        rw [e2, hold]
      have h1 : squash k.cp false = some ({ c1 with chk := restrict (makeHead k.cp.chk (some x)) (x :: t), head := some x }, l) := by
        unfold squash
        rw [rc.cur, hcur]
        dsimp only
        rw [rc.noDead]
        simp only [Bool.false_eq_true, if_false, g7]
        rw [rc.restoreIds cur kc hk (cur + 1) (by omega), e2]
        simp only [List.length_reverse, List.reverse_reverse]
        cases q with
        | nil =>
          have e1 : kc.path = x :: t := e1
          have hl : l = [] := List.length_eq_zero_iff.1 p3
          obtain ⟨kx, b1, b2⟩ := g4 [] x t e1
          obtain ⟨nx, b3, b4⟩ := rc.get b1
          have hpr : nx.prev = none := by
            rcases Option.eq_none_or_eq_some nx.prev with h | ⟨p, h⟩
            · exact h
            · obtain ⟨q', hq'⟩ := (rc.prevOn hk (q := []) e1 b3).2 h
              simp at hq'
          have hhd := (rc.tree.root x nx b3 hpr).1
          rw [e1, if_pos rfl, n1, hl, makeHead_same b3 hpr]
          dsimp only
          rw [← hhd, ← hkeep]
        | cons a q =>
          rw [if_neg (by rw [e1]; simp; omega), e1]
          have hnot : x ∉ a :: q := by
            intro h
            rw [e1, List.nodup_append] at g3
            exact g3.2.2 x h x (List.mem_cons_self ..) rfl
          rw [walk_split k.cp.chk (fun y hy => by rw [rc.isSnap]; exact e3 y hy) (a :: q) hnot, rc.isSnap x, hx]
          simp only [if_true, p1, n1]
      rw [h2]
      have := commit_of h1 n2 p4 db rfl
      rw [p2] at this
      exact this

theorem crep_step (cf : List Cfg) (k : Cherry) (s : Spec) (o : Op) (r : CRep cf k s) (hl : s.legal o) :
    CRep cf (k.step o).1 (s.step o).1 ∧ (k.step o).2 = (s.step o).2 := by
  cases o with
  | base o =>
    obtain ⟨h1, h2⟩ := base_step o r.1 hl
    refine ⟨⟨h1, ?_⟩, ?_⟩
    · have : (s.base o).1.committed = s.committed := by
        have hadd : ∀ (s : Spec) a b c, (s.add a b c).committed = s.committed := fun _ _ _ _ => rfl
        have hcr : ∀ (s : Spec) f, (s.create f).1.committed = s.committed := by
          intro s f
          unfold Spec.create
          split
          · rfl
          · split
            · rfl
            · split <;> rfl
        cases o with
        | access k o => unfold Spec.base; dsimp only; split <;> rfl
        | createHead => unfold Spec.base; dsimp only; split <;> rfl
        | create f =>
          show (Spec.create _ f).1.committed = _
          rw [hcr]
          split <;> rfl
        | load i => unfold Spec.base; dsimp only; split <;> rfl
        | _ => rfl
      show DBOk cf _ (s.base o).1.committed
      rw [this]
      exact db_cp r.2 _
    · show Res.base _ = Res.base _
      rw [h2]
  | commit force => exact commit_step r force
  | stored =>
    refine ⟨r, ?_⟩
    show Res.num _ = Res.num _
    rw [winsOk_sum _ _ _ r.2.wins]

theorem crep_init {ads : List AD} {sp : List ArchData.Spec} (h : All2 ArchData.Rep ads sp) :
    CRep (sp.map cfgOf) (Cherry.init ads) (Spec.init sp) := by
  have h0 := Checkpoint.rep_init h
  refine ⟨⟨⟨h, h0.ofs, rfl, rfl, rfl⟩, rfl, fun _ => ⟨rfl, fun _ => rfl⟩, fun i hi => (by cases hi), h0.tree, fun i => ⟨fun _ => rfl, fun _ => rfl⟩,
    fun i n k hi => (by cases hi), fun k hk => (by cases hk), rfl, rfl⟩, rfl, rfl, rfl, fun _ => rfl⟩

/-! ### the loader -/

structure LRep (cf : List Cfg) (l : Loader) (s : LSpec) : Prop where
  ads : All2 ArchData.Rep l.ads s.ads
  ofs : All2 OfS cf s.ads
  wins : WinsOk cf l.wins 0 s.committed
  runs : Cover l.runs 0 (s.committed.map (·.1))
  num : l.num = s.committed.length
  cache : ∀ w, l.cache = some w → w ∈ l.wins

theorem holds_load {cf : List Cfg} {chk : Map} {p d : Nat} {c : List (Nat → UInt8)} {ads : List AD} {sp : List ArchData.Spec}
    (ra : All2 ArchData.Rep ads sp) (ro : All2 OfS cf sp) (h : Holds cf chk p c d) :
    ∃ ads', Checkpoint.load chk p ads = some ads' ∧ All2 ArchData.Rep ads' (setMems sp c) ∧ All2 OfS cf (setMems sp c) := by
  obtain ⟨ns, b1, _, b3⟩ := h.load (p + 1) (by omega)
  obtain ⟨ads', c1, c2, c3, c4⟩ := b3 ads (good_of ra ro)
  refine ⟨ads', ?_, rep_setMems ra c3 c2 c4, ofS_setMems ro (by rw [h.length, ro.length])⟩
  unfold Checkpoint.load
  rw [b1]
  exact c1

theorem lload_rep {cf : List Cfg} {l : Loader} {s : LSpec} (r : LRep cf l s) (idx : Nat) :
    LRep cf (l.load idx).1 (s.step (.load idx)).1 ∧ Res.base (l.load idx).2 = (s.step (.load idx)).2 := by
  unfold Loader.load LSpec.step
  dsimp only
  rcases Option.eq_none_or_eq_some s.committed[idx]? with hn | ⟨c, hc⟩
  · rw [hn, if_pos (by rw [r.num]; exact List.getElem?_eq_none_iff.1 hn)]
    exact ⟨r, rfl⟩
  · have hlt := (List.getElem?_eq_some_iff.1 hc).1
    rw [hc, if_neg (by rw [r.num]; omega)]
    have hloc := cover_locate idx l.runs 0 0 _ r.runs (Nat.zero_le _) c.1 (by rw [List.getElem?_map, Nat.sub_zero, hc]; rfl)
    rw [Nat.zero_add, Nat.sub_zero] at hloc
    rw [hloc]
    dsimp only
    have found : ∀ w p, w ∈ l.wins → inWindow idx c.1 w = some p → ∃ ads', Checkpoint.load (winMap w.chk) p l.ads = some ads' ∧
        All2 ArchData.Rep ads' (setMems s.ads c.2) ∧ All2 OfS cf (setMems s.ads c.2) := by
      intro w p hw hp
      obtain ⟨c', d, _, f2, _, f4⟩ := winsOk_found l.wins 0 _ r.wins hw hp
      rw [Nat.sub_zero, hc] at f2
      cases f2
      exact holds_load r.ads r.ofs f4
    rcases Option.eq_none_or_eq_some (l.cache.bind fun w => (inWindow idx c.1 w).map fun p => (w, p)) with hm | ⟨⟨w, p⟩, hm⟩
    · rw [hm]
      dsimp only
      obtain ⟨w, p, d1, d2, d3, d4⟩ := winsOk_disk l.wins 0 _ r.wins (Nat.zero_le idx) (by rw [Nat.sub_zero]; exact hc)
      obtain ⟨ads', f1, f2, f3⟩ := found w p d1 d3
      have : fromDisk l.wins idx c.1 = some w := by
        unfold fromDisk
        have d2 : (l.wins.filter fun w => decide (w.first ≤ idx ∧ idx ≤ w.last ∧ w.tick0 ≤ c.1 ∧ c.1 ≤ w.tick1)) = [w] := d2
        rw [d2]
        dsimp only
        rw [d3, d4]
        rfl
      rw [this]
      dsimp only
      rw [d3, Option.bind_some, f1]
      exact ⟨⟨f2, f3, r.wins, r.runs, r.num, fun v hv => (by injection hv with hv; rw [← hv]; exact d1)⟩, rfl⟩
    · rw [hm]
      dsimp only
      obtain ⟨w', hw', hp'⟩ := Option.bind_eq_some_iff.1 hm
      obtain ⟨p', hp2, e⟩ := Option.map_eq_some_iff.1 hp'
      injection e with e1 e2
      subst e1
      subst e2
      obtain ⟨ads', f1, f2, f3⟩ := found w' p' (r.cache w' hw') hp2
      rw [f1]
      exact ⟨⟨f2, f3, r.wins, r.runs, r.num, r.cache⟩, rfl⟩

theorem lrep_step (cf : List Cfg) (l : Loader) (s : LSpec) (o : LOp) (r : LRep cf l s) (hl : s.legal o) :
    LRep cf (l.step o).1 (s.step o).1 ∧ (l.step o).2 = (s.step o).2 := by
  cases o with
  | access k o =>
    unfold Loader.step LSpec.step
    unfold LSpec.legal at hl
    dsimp only at hl ⊢
    rcases Option.eq_none_or_eq_some l.ads[k]? with hm | ⟨m, hm⟩
    · rw [hm, r.ads.none hm]; exact ⟨r, rfl⟩
    · obtain ⟨sp, hsp, rm⟩ := r.ads.get hm
      rw [hm, hsp]
      rw [hsp] at hl
      dsimp only at hl ⊢
      obtain ⟨g1, g2⟩ := ArchData.rep_step m sp o rm hl
      refine ⟨⟨r.ads.set k g1, ?_, r.wins, r.runs, r.num, r.cache⟩, by rw [g2]⟩
      refine r.ofs.set_right k (fun f hf => ?_)
      obtain ⟨sp', b1, b2⟩ := r.ofs.get hf
      rw [hsp] at b1
      cases b1
      exact ofS_step b2 o
  | load idx => exact lload_rep r idx
  | count => exact ⟨r, by show Res.num _ = Res.num _; rw [r.num]⟩

/-- a loader opened after teardown -/
theorem start_rep {cf : List Cfg} {k : Cherry} {comm : List (Nat × List (Nat → UInt8))} {ads : List AD} {sp : List ArchData.Spec}
    (d : DBOk cf k comm) (ra : All2 ArchData.Rep ads sp) (ro : All2 OfS cf sp) :
    (comm = [] → Loader.start k.teardown ads = none) ∧
    (comm ≠ [] → ∃ l, Loader.start k.teardown ads = some l ∧ LRep cf l ⟨sp, comm⟩) := by
  have hr := d.runs
  unfold Loader.start Cherry.teardown
  dsimp only
  cases hd : k.dbRuns ++ k.runs with
  | nil =>
    rw [hd] at hr
    have hr : comm.map (·.1) = [] := hr
    refine ⟨fun _ => rfl, fun h => absurd (List.map_eq_nil_iff.1 hr) h⟩
  | cons x xs =>
    rw [hd] at hr
    constructor
    · intro e
      subst e
      obtain ⟨_, _, ts', g, _⟩ := hr
      simp at g
    · intro _
      refine ⟨_, rfl, ra, ro, d.wins, hr, ?_, fun w hw => (by cases hw)⟩
      dsimp only
      rw [cover_sum _ _ _ hr, List.length_map]

/-- what a load of a committed checkpoint leaves -/
theorem loads {cf : List Cfg} {l : Loader} {sp : List ArchData.Spec} {comm : List (Nat × List (Nat → UInt8))} {n : Nat}
    {c : Nat × List (Nat → UInt8)} (hr : LRep cf l ⟨sp, comm⟩) (hc : comm[n]? = some c) :
    (l.load n).2 = .done ∧ (∃ sp', LRep cf (l.load n).1 ⟨sp', comm⟩) ∧ (l.load n).1.ads.map AD.byteAt = c.2 := by
  obtain ⟨q1, q2⟩ := lload_rep hr n
  have hst : LSpec.step ⟨sp, comm⟩ (.load n) = (⟨setMems sp c.2, comm⟩, .base .done) := by
    unfold LSpec.step
    dsimp only
    rw [hc]
  rw [hst] at q1 q2
  refine ⟨by injection q2, ⟨_, q1⟩, ?_⟩
  rw [← mems_of q1.ads]
  have hlen : sp.length = c.2.length := by
    obtain ⟨w, p, d1, _, d3, _⟩ := winsOk_disk l.wins 0 _ hr.wins (Nat.zero_le n) (by rw [Nat.sub_zero]; exact hc)
    obtain ⟨c', d, _, f2, _, f4⟩ := winsOk_found l.wins 0 _ hr.wins d1 d3
    have f2 : comm[n - 0]? = some c' := f2
    rw [Nat.sub_zero, hc] at f2
    cases f2
    rw [f4.length]
    exact hr.ofs.length.symm
  have : ∀ (as : List ArchData.Spec) (ms : List (Nat → UInt8)), as.length = ms.length → (setMems as ms).map (·.mem) = ms := by
    intro as
    induction as with
    | nil => intro ms h; cases ms with
      | nil => rfl
      | cons _ _ => cases h
    | cons a as ih => intro ms h; cases ms with
      | nil => cases h
      | cons m ms => show m :: (setMems as ms).map (·.mem) = _; rw [ih ms (by simpa using h)]
  exact this sp c.2 hlen

end Sparta.Cherry
