import Verif.Checkpoint.Cleanup
/-! The checkpointer refines its specification. -/
namespace Sparta.Checkpoint
open Sparta.ArchData

/-! ### memories -/

def OfS (f : Cfg) (a : ArchData.Spec) : Prop := f.lsb = a.lsb ∧ f.fill = a.fill ∧ f.fsz = a.fsz ∧ f.size = a.size

theorem good_of : ∀ {cf : List Cfg} {ads : List AD} {sp : List ArchData.Spec}, All2 ArchData.Rep ads sp → All2 OfS cf sp →
    All2 Good cf ads
  | [], [], [], _, _ => trivial
  | [], _ :: _, [], h, _ => h.elim
  | _ :: _, [], [], _, g => g.elim
  | _ :: _, [], _ :: _, h, _ => h.elim
  | _ :: _, _ :: _, _ :: _, h, g =>
    ⟨⟨h.1.wf, g.1.1.trans h.1.lsb, g.1.2.1.trans h.1.fill, g.1.2.2.1.trans h.1.fsz, g.1.2.2.2.trans h.1.size⟩, good_of h.2 g.2⟩

theorem mems_of : ∀ {ads : List AD} {sp : List ArchData.Spec}, All2 ArchData.Rep ads sp →
    sp.map (·.mem) = ads.map AD.byteAt
  | [], [], _ => rfl
  | _ :: _, _ :: _, h => by
    rw [List.map_cons, List.map_cons, mems_of h.2]
    congr 1
    funext x
    exact (h.1.mem x).symm

theorem rep_sameAll : ∀ {cf : List Cfg} {ads ads' : List AD} {sp : List ArchData.Spec}, All2 ArchData.Rep ads sp →
    All2 AD.sameCfg ads ads' → All2 Good cf ads' → ads'.map AD.byteAt = ads.map AD.byteAt → All2 ArchData.Rep ads' sp
  | [], [], [], [], _, _, _, _ => trivial
  | _ :: _, _ :: _, _ :: _, _ :: _, h, c, g, e => by
    rw [List.map_cons, List.map_cons] at e
    injection e with e1 e2
    exact ⟨rep_same h.1 g.1.1 c.1 (fun b => congrFun e1 b), rep_sameAll h.2 c.2 g.2 e2⟩
  | [], [], _ :: _, _, _, c, _, _ => c.elim
  | [], [], [], _ :: _, h, _, _, _ => h.elim
  | [], _ :: _, _ :: _, _, _, _, g, _ => g.elim
  | _ :: _, [], [], _, _, _, g, _ => g.elim
  | _ :: _, [], _ :: _, _, _, c, _, _ => c.elim

theorem rep_setMems : ∀ {cf : List Cfg} {ads ads' : List AD} {sp : List ArchData.Spec} {mems : List (Nat → UInt8)},
    All2 ArchData.Rep ads sp →
    All2 AD.sameCfg ads ads' → All2 Good cf ads' → ads'.map AD.byteAt = mems → All2 ArchData.Rep ads' (setMems sp mems)
  | [], [], [], [], [], _, _, _, _ => trivial
  | [], [], [], [], _ :: _, _, _, _, e => by cases e
  | _ :: _, _ :: _, _ :: _, _ :: _, _ :: _, h, c, g, e => by
    rw [List.map_cons] at e
    injection e with e1 e2
    obtain ⟨c1, c2, c3, c4, c5, c6⟩ := c.1
    refine ⟨⟨g.1.1, h.1.lsb.trans c1.symm, h.1.fill.trans c2.symm, h.1.fsz.trans c3.symm, h.1.size.trans c5.symm,
      h.1.inits.trans c6.symm, ?_, fun b => congrFun e1 b⟩, rep_setMems h.2 c.2 g.2 e2⟩
    rw [c6]; exact h.1.short
  | _ :: _, _ :: _, _ :: _, _ :: _, [], _, _, _, e => by cases e
  | [], [], _ :: _, _, _, _, c, _, _ => c.elim
  | [], [], [], _ :: _, _, h, _, _, _ => h.elim
  | [], _ :: _, _ :: _, _, _, _, _, g, _ => g.elim
  | _ :: _, [], [], _, _, _, _, g, _ => g.elim
  | _ :: _, [], _ :: _, _, _, _, c, _, _ => c.elim

theorem ofS_setMems : ∀ {cf : List Cfg} {sp : List ArchData.Spec} {mems : List (Nat → UInt8)}, All2 OfS cf sp →
    mems.length = sp.length → All2 OfS cf (setMems sp mems)
  | [], [], [], _, _ => trivial
  | _ :: _, _ :: _, _ :: _, h, e => ⟨h.1, ofS_setMems h.2 (by simpa using e)⟩

theorem cleanAt_self : ∀ (ads : List AD), All2 CleanAt ads (ads.map AD.byteAt)
  | [] => trivial
  | _ :: ads => ⟨fun _ _ => rfl, cleanAt_self ads⟩

theorem stores_cfg (l : List (Nat × List UInt8)) : ∀ (a : ArchData.Spec), (a.stores l).lsb = a.lsb ∧
    (a.stores l).fill = a.fill ∧ (a.stores l).fsz = a.fsz ∧ (a.stores l).size = a.size := by
  induction l with
  | nil => intro a; exact ⟨rfl, rfl, rfl, rfl⟩
  | cons p l ih =>
    intro a
    obtain ⟨x, bs⟩ := p
    show ((if a.inLine x bs.length then a.store x bs else a).stores l).lsb = _ ∧ _
    obtain ⟨h1, h2, h3, h4⟩ := ih (if a.inLine x bs.length then a.store x bs else a)
    show ((if a.inLine x bs.length then a.store x bs else a).stores l).lsb = _ ∧
      ((if a.inLine x bs.length then a.store x bs else a).stores l).fill = _ ∧
      ((if a.inLine x bs.length then a.store x bs else a).stores l).fsz = _ ∧
      ((if a.inLine x bs.length then a.store x bs else a).stores l).size = _
    rw [h1, h2, h3, h4]
    split <;> exact ⟨rfl, rfl, rfl, rfl⟩

theorem ofS_step {f : Cfg} {a : ArchData.Spec} (h : OfS f a) (o : ArchData.Op) : OfS f (a.step o).1 := by
  cases o with
  | read => exact h
  | peek => exact h
  | write x bs => unfold ArchData.Spec.step; dsimp only; split <;> exact h
  | clean => exact h
  | reset =>
    obtain ⟨h1, h2, h3, h4⟩ := stores_cfg a.inits { a with mem := a.blank }
    exact ⟨h.1.trans h1.symm, h.2.1.trans h2.symm, h.2.2.1.trans h3.symm, h.2.2.2.trans h4.symm⟩

theorem cleanAt_getLine {m q : AD} (w : WF m) {a : Nat} (hq : m.getLine a = some q) {g : Nat → UInt8} (h : CleanAt m g) :
    CleanAt q g := by
  have ha : a < m.size := by
    by_cases ha : a < m.size
    · exact ha
    · unfold AD.getLine at hq; rw [if_neg ha] at hq; cases hq
  obtain ⟨q', l, h1, cfg, h3, h4, h5, h6, h7, _⟩ := getLine_spec m w.fill a ha
  rw [hq] at h1
  cases h1
  intro x hx
  rw [h4]
  apply h
  rw [cfg.lineSize] at hx
  intro l' hl'
  by_cases e : x / m.lineSize = a / m.lineSize
  · rw [e] at hl' hx
    exact hx l' (by rw [h3, h6 l' hl'])
  · exact hx l' (by rw [h5 _ e]; exact hl')

theorem cleanAt_step {m : AD} (w : WF m) (o : ArchData.Op) (hw : isWipe o = false) (hl : ∀ a bs, o = .write a bs → bs.length < 2 ^ 63)
    {g : Nat → UInt8} (h : CleanAt m g) : CleanAt (m.step o).1 g := by
  cases o with
  | clean => cases hw
  | reset => cases hw
  | peek => exact h
  | read a n =>
    unfold AD.step
    dsimp only
    rcases Option.eq_none_or_eq_some (m.getLine a) with hg | ⟨q, hg⟩
    · rw [hg]; exact h
    · rw [hg]
      dsimp only
      have hq := cleanAt_getLine w hg h
      rcases Option.eq_none_or_eq_some (m.read a n) with hr | ⟨⟨q', bs⟩, hr⟩
      · rw [hr]; exact hq
      · rw [hr]
        unfold AD.read at hr
        rw [hg] at hr
        simp only [Option.bind_some] at hr
        rcases Option.eq_none_or_eq_some (q.find (q.lineIdx a)) with hf | ⟨l, hf⟩
        · rw [hf] at hr; cases hr
        · rw [hf] at hr
          simp only [Option.bind_some] at hr
          cases hrd : l.read q.lineSize (a % q.lineSize) n with
          | none => rw [hrd] at hr; cases hr
          | some b => rw [hrd] at hr; cases hr; exact hq
  | write a bs =>
    obtain ⟨_, cfg, _, hb, hd⟩ := write_spec w a bs (hl a bs rfl)
    show CleanAt (m.write a bs).1 g
    intro x hx
    have hls := cfg.lineSize
    rw [hls] at hx
    have hsame : (m.write a bs).1.find (x / m.lineSize) = m.find (x / m.lineSize) := by
      apply hd
      rcases Option.eq_none_or_eq_some ((m.write a bs).1.find (x / m.lineSize)) with e | ⟨l, e⟩
      · exact Or.inl e
      · exact Or.inr ⟨l, e, hx l e⟩
    have e2 : (m.write a bs).1.byteAt x = m.byteAt x := by
      unfold AD.byteAt
      rw [hls, hsame, cfg.2.1, cfg.2.2.1]
    rw [e2]
    exact h x (fun l hl => hx l (by rw [hsame]; exact hl))

/-! ### the relation -/

structure Rep (cf : List Cfg) (c : CP) (s : Spec) : Prop where
  ads : All2 ArchData.Rep c.ads s.ads
  ofs : All2 OfS cf s.ads
  next : c.next = s.chks.length
  now : c.now = s.now
  thresh : c.thresh = s.thresh
  cur : c.cur = s.cur
  head : c.head = if s.chks.length = 0 then none else some 0
  curNone : s.chks.length = 0 → s.cur = none
  curSome : s.chks.length ≠ 0 → ∃ i k, s.cur = some i ∧ s.chks[i]? = some k
  tree : Tree c.chk c.next c.head
  node : ∀ i n, c.chk i = some n → ∃ k, s.chks[i]? = some k ∧ n.tick = k.tick ∧ n.snap = k.snap ∧ n.deleted = k.deleted
  kept : ∀ i k, s.chks[i]? = some k → (k.deleted = false ∨ s.cur = some i) → Holds cf c.chk i k.mems k.dist
  clean : ∀ k, s.current = some k → All2 CleanAt c.ads k.mems
  alive : c.alive = s.chks.countP (!·.deleted)
  snaps : c.snaps = s.chks.countP fun k => !k.deleted && k.snap
  dead : c.dead = deadCnt c.chk c.next
  lin : s.loaded = false → ∀ i, s.cur = some i → Lin c.chk i

theorem Rep.good {cf : List Cfg} {c : CP} {s : Spec} (r : Rep cf c s) : All2 Good cf c.ads := good_of r.ads r.ofs

theorem Rep.mems {cf : List Cfg} {c : CP} {s : Spec} (r : Rep cf c s) : s.mems = c.ads.map AD.byteAt := mems_of r.ads

theorem applyAll_length : ∀ (cf : List Cfg) (recss : List (List (Nat × Data))) (ms : List (Nat → UInt8)),
    All2 RecsIn cf recss → ms.length = cf.length → (applyAll cf recss ms).length = cf.length
  | [], [], ms, _, _ => by cases ms <;> rfl
  | _ :: cf, _ :: rs, m :: ms, h, e => by
    show (applyAll cf rs ms).length + 1 = _
    rw [applyAll_length cf rs ms h.2 (by simpa using e)]
    rfl
  | _ :: _, _ :: _, [], _, e => by cases e

theorem Holds.length {cf : List Cfg} {chk : Map} {a d : Nat} {mems : List (Nat → UInt8)} (h : Holds cf chk a mems d) :
    mems.length = cf.length := by
  induction h with
  | snap _ _ _ h4 => exact applyAll_length _ _ _ h4 (by simp)
  | delta _ _ _ _ _ h6 _ ih => exact applyAll_length _ _ _ h6 ih

/-- what is known about a checkpoint that is in use -/
theorem Rep.inUse {cf : List Cfg} {c : CP} {s : Spec} (r : Rep cf c s) {i : Nat} {k : Chk} (hk : s.chks[i]? = some k)
    (hu : k.deleted = false ∨ s.cur = some i) : ∃ n, c.chk i = some n ∧ n.tick = k.tick ∧ n.snap = k.snap ∧
      n.deleted = k.deleted := by
  obtain ⟨n, hn⟩ := (r.kept i k hk hu).inMap
  obtain ⟨k', h1, h2⟩ := r.node i n hn
  rw [hk] at h1
  cases h1
  exact ⟨n, hn, h2⟩

theorem Rep.shrink {cf : List Cfg} {c : CP} {s : Spec} (r : Rep cf c s) {chk' : Map} {dead' : Nat}
    (sh : Shrink cf c.next c.head c.cur c.chk chk') (hd : dead' = deadCnt chk' c.next) :
    Rep cf { c with chk := chk', dead := dead' } s := by
  refine ⟨r.ads, r.ofs, r.next, r.now, r.thresh, r.cur, r.head, r.curNone, r.curSome, sh.tree, ?_, ?_, r.clean, r.alive,
    r.snaps, hd, fun h i hi => sh.lin i (r.lin h i hi)⟩
  · intro i n hn
    obtain ⟨m, hm, sm⟩ := sh.back i n hn
    obtain ⟨k, h1, h2, h3, h4⟩ := r.node i m hm
    exact ⟨k, h1, sm.tick.trans h2, sm.snap.trans h3, sm.deleted.trans h4⟩
  · intro i k hk hu
    obtain ⟨n, hn, _, _, hdel⟩ := r.inUse hk hu
    refine sh.holds i n _ _ hn ?_ (r.kept i k hk hu)
    rcases hu with hu | hu
    · exact Or.inl (hdel.trans hu)
    · exact Or.inr (r.cur.trans hu)

theorem head_tick {chk : Map} {next h : Nat} (t : Tree chk next (some h)) {hn : Node} (hh : chk h = some hn) :
    ∀ id n, chk id = some n → hn.tick ≤ n.tick := by
  intro id
  induction id using Nat.strongRecOn with
  | ind id ih =>
    intro n hid
    rcases Option.eq_none_or_eq_some n.prev with hp | ⟨p, hp⟩
    · have := (t.root id n hid hp).1
      cases this
      rw [hh] at hid
      cases hid
      exact Nat.le_refl _
    · obtain ⟨a1, m, a2, _, a3⟩ := t.prevOk id n p hid hp
      have := ih p a1 m a2
      omega

/-! ### a new checkpoint -/

/-- the map after a checkpoint was added after `p` -/
def added (chk : Map) (next p : Nat) (pn n : Node) : Map :=
  upd (upd chk p (some { pn with nexts := pn.nexts ++ [next] })) next (some n)

theorem added_tree {chk : Map} {next p : Nat} {head : Option Nat} {pn n : Node} (t : Tree chk next head) (hp : chk p = some pn)
    (h1 : n.prev = some p) (h2 : n.nexts = []) (h3 : pn.tick ≤ n.tick) : Tree (added chk next p pn n) (next + 1) head := by
  have hlt := t.lt p pn hp
  have vn : added chk next p pn n next = some n := by simp [added, upd]
  have vp : added chk next p pn n p = some { pn with nexts := pn.nexts ++ [next] } := by
    unfold added; rw [upd_other _ _ (by omega)]; simp [upd]
  have vo : ∀ i, i ≠ next → i ≠ p → added chk next p pn n i = chk i := by
    intro i a b; unfold added; rw [upd_other _ _ a, upd_other _ _ b]
  have old : ∀ i m, chk i = some m → i ≠ next := fun i m h => by have := t.lt i m h; omega
  generalize hq : added chk next p pn n = q at vn vp vo
  refine ⟨?_, ?_, ?_, ?_, ?_, ?_⟩
  · intro i m hi
    by_cases e : i = next
    · omega
    · by_cases e2 : i = p
      · omega
      · rw [vo i e e2] at hi
        have := t.lt i m hi
        omega
  · intro i m r hi hr
    have key : ∀ m0, chk i = some m0 → m0.prev = some r → m0.tick = m.tick → r < i ∧ ∃ m', q r = some m' ∧ i ∈ m'.nexts ∧ m'.tick ≤ m.tick := by
      intro m0 g1 g2 g3
      obtain ⟨a1, m', a2, a3, a4⟩ := t.prevOk i m0 r g1 g2
      refine ⟨a1, ?_⟩
      by_cases e : r = p
      · subst e
        rw [hp] at a2
        cases a2
        exact ⟨_, vp, List.mem_append_left _ a3, by rw [← g3]; exact a4⟩
      · exact ⟨m', by rw [vo r (old r m' a2) e]; exact a2, a3, by rw [← g3]; exact a4⟩
    by_cases e : i = next
    · subst e
      rw [vn] at hi
      cases hi
      rw [h1] at hr
      cases hr
      exact ⟨hlt, _, vp, by simp, h3⟩
    · by_cases e2 : i = p
      · subst e2
        rw [vp] at hi
        cases hi
        exact key pn hp hr rfl
      · rw [vo i e e2] at hi
        exact key m hi hr rfl
  · intro i m x hi hx
    have key : ∀ m0, chk i = some m0 → x ∈ m0.nexts → ∃ m', q x = some m' ∧ m'.prev = some i := by
      intro m0 g1 g2
      obtain ⟨m', a1, a2⟩ := t.nextOk i m0 x g1 g2
      by_cases e : x = p
      · subst e
        rw [hp] at a1
        cases a1
        exact ⟨_, vp, a2⟩
      · exact ⟨m', by rw [vo x (old x m' a1) e]; exact a1, a2⟩
    by_cases e : i = next
    · subst e
      rw [vn] at hi
      cases hi
      rw [h2] at hx
      cases hx
    · by_cases e2 : i = p
      · subst e2
        rw [vp] at hi
        cases hi
        rcases List.mem_append.1 hx with hx | hx
        · exact key pn hp hx
        · have := List.mem_singleton.1 hx
          subst this
          exact ⟨n, vn, h1⟩
      · rw [vo i e e2] at hi
        exact key m hi hx
  · intro i m hi
    by_cases e : i = next
    · subst e
      rw [vn] at hi
      cases hi
      rw [h2]
      exact List.nodup_nil
    · by_cases e2 : i = p
      · subst e2
        rw [vp] at hi
        cases hi
        show (pn.nexts ++ [next]).Nodup
        rw [List.nodup_append]
        refine ⟨t.nodup _ _ hp, by simp, ?_⟩
        intro a ha b hb hab
        have := List.mem_singleton.1 hb
        obtain ⟨m', a1, _⟩ := t.nextOk _ _ a hp ha
        exact old a m' a1 (by omega)
      · rw [vo i e e2] at hi
        exact t.nodup i m hi
  · intro i m hi hr
    by_cases e : i = next
    · subst e
      rw [vn] at hi
      cases hi
      rw [h1] at hr
      cases hr
    · by_cases e2 : i = p
      · subst e2
        rw [vp] at hi
        cases hi
        exact t.root _ pn hp hr
      · rw [vo i e e2] at hi
        exact t.root i m hi hr
  · intro h hh
    obtain ⟨m, a1, a2⟩ := t.headIn h hh
    by_cases e2 : h = p
    · subst e2
      rw [hp] at a1
      cases a1
      exact ⟨_, vp, a2⟩
    · exact ⟨m, by rw [vo h (old h m a1) e2]; exact a1, a2⟩

theorem deadCnt_added {chk : Map} {next p : Nat} {pn n : Node} (hp : chk p = some pn) (hlt : p < next)
    (hn : n.deleted = false) : deadCnt (added chk next p pn n) (next + 1) = deadCnt chk next := by
  unfold deadCnt
  rw [List.range_succ, List.countP_append, List.countP_singleton]
  have e : isDead (added chk next p pn n) next = false := by unfold isDead added; simp [upd, hn]
  rw [e]
  show List.countP _ _ + 0 = _
  rw [Nat.add_zero]
  apply List.countP_congr
  intro x hx
  rw [List.mem_range] at hx
  unfold isDead added
  rw [upd_other _ _ (by omega)]
  by_cases hxp : x = p
  · subst hxp; simp [upd, hp]
  · rw [upd_other _ _ hxp]

theorem getElem?_snoc {α : Type _} {l : List α} {x y : α} {i : Nat} (h : (l ++ [x])[i]? = some y) :
    l[i]? = some y ∨ (i = l.length ∧ y = x) := by
  by_cases hi : i < l.length
  · rw [List.getElem?_append_left hi] at h; exact Or.inl h
  · rw [List.getElem?_append_right (by omega)] at h
    have : i - l.length = 0 := by
      by_cases e : i - l.length = 0
      · exact e
      · rw [List.getElem?_eq_none (by simp; omega)] at h; cases h
    rw [this] at h
    simp at h
    exact Or.inr ⟨by omega, h.symm⟩

theorem newNode_rep {cf : List Cfg} {c : CP} {s : Spec} (r : Rep cf c s) {p : Nat} {k : Chk} (hcur : s.cur = some p)
    (hk : s.chks[p]? = some k) (htick : k.tick ≤ s.now) (snap : Bool) :
    ∃ c', c.newNode (some p) snap = some c' ∧ c'.cur = some c.next ∧ c'.next = c.next + 1 ∧
      (∃ n, c'.chk c.next = some n) ∧
      Rep cf c' (s.add snap (if snap then 0 else k.dist + 1)) := by
  obtain ⟨pn, hpn, e1, e2, e3⟩ := r.inUse hk (Or.inr hcur)
  have hlt := r.tree.lt p pn hpn
  have hbase := r.clean k (by unfold Spec.current; rw [hcur]; exact hk)
  obtain ⟨recss, b1, b2, b3, b4, b5, b6⟩ := store_spec snap cf c.ads k.mems r.good (fun _ => hbase)
  have hnot : c.next ∉ pn.nexts := by
    intro h
    obtain ⟨m, hm, _⟩ := r.tree.nextOk p pn c.next hpn h
    have := r.tree.lt _ _ hm
    omega
  have hmem := r.mems
  have hlen : s.chks.length ≠ 0 := by rw [← r.next]; omega
  have hstep : c.newNode (some p) snap = some ⟨(store snap c.ads).1, added c.chk c.next p pn ⟨some p, [], snap, false, c.now, (store snap c.ads).2⟩,
      c.head, some c.next, c.next + 1, c.thresh, c.alive + 1, c.snaps + (if snap then 1 else 0), c.dead, c.now⟩ := by
    unfold CP.newNode
    dsimp only
    rw [hpn]
    dsimp only
    rw [if_neg (by rintro (h | h); · rw [r.now, e1] at h; omega
                   · exact hnot h)]
    rfl
  have hkeep : ∀ n i m, c.chk i = some m → ∃ n', added c.chk c.next p pn n i = some n' ∧ n'.snap = m.snap ∧ n'.prev = m.prev ∧ n'.data = m.data := by
    intro n i m hi
    have := r.tree.lt i m hi
    by_cases e : i = p
    · subst e
      rw [hpn] at hi
      cases hi
      exact ⟨{ pn with nexts := pn.nexts ++ [c.next] }, by unfold added; rw [upd_other _ _ (by omega)]; simp [upd], rfl, rfl, rfl⟩
    · exact ⟨m, by unfold added; rw [upd_other _ _ (by omega), upd_other _ _ e]; exact hi, rfl, rfl, rfl⟩
  have hnew : ∀ n, added c.chk c.next p pn n c.next = some n := by intro n; simp [added, upd]
  have hback : ∀ n i m, added c.chk c.next p pn n i = some m → i ≠ c.next → ∃ m0, c.chk i = some m0 ∧
      m.tick = m0.tick ∧ m.snap = m0.snap ∧ m.deleted = m0.deleted ∧ m.prev = m0.prev := by
    intro n i m hi e
    by_cases e2 : i = p
    · subst e2
      have : added c.chk c.next i pn n i = some { pn with nexts := pn.nexts ++ [c.next] } := by
        unfold added; rw [upd_other _ _ e]; simp [upd]
      rw [this] at hi
      cases hi
      exact ⟨pn, hpn, rfl, rfl, rfl, rfl⟩
    · unfold added at hi
      rw [upd_other _ _ e, upd_other _ _ e2] at hi
      exact ⟨m, hi, rfl, rfl, rfl, rfl⟩
  refine ⟨_, hstep, rfl, rfl, ⟨_, hnew _⟩, ?_⟩
  have hlen2 : (s.add snap (if snap then 0 else k.dist + 1)).chks.length = s.chks.length + 1 := by
    simp [Spec.add]
  refine ⟨rep_sameAll r.ads b4 b3 b5, r.ofs, by rw [hlen2, ← r.next], r.now, r.thresh, by rw [r.next]; rfl, ?_, ?_, ?_, ?_, ?_, ?_, ?_, ?_, ?_, ?_, ?_⟩
  · dsimp only; rw [r.head, if_neg hlen, if_neg (by omega)]
  · intro h; omega
  · intro _
    exact ⟨s.chks.length, _, rfl, by simp [Spec.add]; rfl⟩
  · exact added_tree r.tree hpn rfl rfl (by dsimp only; rw [e1, r.now]; exact htick)
  · intro i n hi
    dsimp only at hi
    by_cases e : i = c.next
    · subst e
      rw [hnew] at hi
      cases hi
      refine ⟨_, by simp [Spec.add, r.next]; rfl, r.now, rfl, rfl⟩
    · obtain ⟨m0, h0, g1, g2, g3, _⟩ := hback _ i n hi e
      obtain ⟨k0, a1, a2, a3, a4⟩ := r.node i m0 h0
      have hi' : i < s.chks.length := by rw [← r.next]; exact r.tree.lt _ _ h0
      exact ⟨k0, by rw [Spec.add, List.getElem?_append_left hi']; exact a1, g1.trans a2, g2.trans a3, g3.trans a4⟩
  · intro i k0 h0 hu
    dsimp only
    rcases getElem?_snoc h0 with h1 | ⟨h1, h2⟩
    · have hi' := List.getElem?_eq_some_iff.1 h1 |>.1
      refine (r.kept i k0 h1 ?_).mono (hkeep _)
      rcases hu with hu | hu
      · exact Or.inl hu
      · have : s.chks.length = i := by injection hu
        omega
    · subst h2
      rw [← r.next] at h1
      subst h1
      dsimp only
      rw [hmem, b6]
      cases snap with
      | true => simp only [if_true]; exact .snap (hnew _) rfl b1 b2
      | false =>
        simp only [Bool.false_eq_true, if_false]
        exact .delta (hnew _) rfl rfl hlt b1 b2 ((r.kept p k hk (Or.inr hcur)).mono (hkeep _))
  · intro k0 h0
    have : k0 = ⟨s.mems, s.now, snap, if snap then 0 else k.dist + 1, false, s.cur⟩ := by
      unfold Spec.current Spec.add at h0
      simp at h0
      exact h0.symm
    rw [this]
    dsimp only
    rw [hmem, ← b5]
    exact cleanAt_self _
  · simp [Spec.add, List.countP_append, r.alive]
  · dsimp only
    rw [Spec.add, List.countP_append, List.countP_singleton, r.snaps]
    cases snap <;> rfl
  · dsimp only
    rw [deadCnt_added hpn hlt rfl]; exact r.dead
  · intro hl i hi
    have hl' := r.lin hl p hcur
    have : s.chks.length = i := by injection hi
    rw [← r.next] at this
    subst this
    refine ⟨?_, ?_⟩
    · intro id n q x hid hq hx1 hx2
      dsimp only at hid ⊢
      have hx : ∀ x, x ≠ c.next → c.chk x = none → added c.chk c.next p pn ⟨some p, [], snap, false, c.now, (store snap c.ads).2⟩ x = none := by
        intro x h1 h2
        have : x ≠ p := by intro h; subst h; rw [hpn] at h2; cases h2
        unfold added
        rw [upd_other _ _ h1, upd_other _ _ this, h2]
      by_cases e : id = c.next
      · subst e
        rw [hnew] at hid
        cases hid
        cases hq
        apply hx x (by omega)
        rcases Option.eq_none_or_eq_some (c.chk x) with h | ⟨m, h⟩
        · exact h
        · have := hl'.top x m h; omega
      · obtain ⟨m0, h0, _, _, _, g4⟩ := hback _ id n hid e
        have := r.tree.lt id m0 h0
        exact hx x (by omega) (hl'.gap id m0 q x h0 (by rw [← g4]; exact hq) hx1 hx2)
    · intro id n hid
      dsimp only at hid
      by_cases e : id = c.next
      · omega
      · obtain ⟨m0, h0, _⟩ := hback _ id n hid e
        have := r.tree.lt id m0 h0
        omega

theorem newHead_rep {cf : List Cfg} {c : CP} {s : Spec} (r : Rep cf c s) (h0 : s.chks.length = 0) :
    ∃ c', c.createHead = some c' ∧ c'.head = some 0 ∧ Rep cf c' (s.add true 0) := by
  have hch : s.chks = [] := List.length_eq_zero_iff.1 h0
  have hnx : c.next = 0 := by rw [r.next, h0]
  have hhead : c.head = none := by rw [r.head, if_pos h0]
  have hcur := r.curNone h0
  have hempty : ∀ i, c.chk i = none := by
    intro i
    rcases Option.eq_none_or_eq_some (c.chk i) with h | ⟨m, h⟩
    · exact h
    · have := r.tree.lt i m h; omega
  obtain ⟨recss, b1, b2, b3, b4, b5, b6⟩ := store_spec true cf c.ads [] r.good (fun h => by cases h)
  simp only [if_true] at b6
  have hadd : (s.add true 0) = { s with chks := [⟨s.mems, s.now, true, 0, false, none⟩], cur := some 0 } := by
    unfold Spec.add; rw [hcur, hch]; rfl
  have halive : c.alive = 0 := by rw [r.alive, hch]; rfl
  have hsnaps : c.snaps = 0 := by rw [r.snaps, hch]; rfl
  have hdead : c.dead = 0 := by rw [r.dead, hnx]; rfl
  refine ⟨⟨(store true c.ads).1, upd c.chk 0 (some ⟨none, [], true, false, c.now, (store true c.ads).2⟩),
      some 0, some 0, 1, c.thresh, 1, 1, 0, c.now⟩, ?_, rfl, ?_⟩
  · unfold CP.createHead
    rw [hhead]
    unfold CP.newNode
    simp only [if_true, Option.map_some]
    rw [hnx, halive, hsnaps, hdead]
  · rw [hadd]
    have hv : upd c.chk 0 (some ⟨none, [], true, false, c.now, (store true c.ads).2⟩) 0 = some ⟨none, [], true, false, c.now, (store true c.ads).2⟩ := by simp [upd]
    have ho : ∀ i m, upd c.chk 0 (some ⟨none, [], true, false, c.now, (store true c.ads).2⟩) i = some m →
        i = 0 ∧ m = ⟨none, [], true, false, c.now, (store true c.ads).2⟩ := by
      intro i m hi
      by_cases e : i = 0
      · subst e; rw [hv] at hi; cases hi; exact ⟨rfl, rfl⟩
      · rw [upd_other _ _ e, hempty] at hi; cases hi
    refine ⟨rep_sameAll r.ads b4 b3 b5, r.ofs, rfl, r.now, r.thresh, rfl, rfl, fun h => (by cases h), fun _ => ⟨0, _, rfl, rfl⟩, ?_, ?_, ?_, ?_, rfl, rfl, ?_, ?_⟩
    · refine ⟨?_, ?_, ?_, ?_, ?_, ?_⟩
      · intro i m hi; have := (ho i m hi).1; show i < 1; omega
      · intro i m p hi hp; rw [(ho i m hi).2] at hp; cases hp
      · intro i m x hi hx; rw [(ho i m hi).2] at hx; cases hx
      · intro i m hi; rw [(ho i m hi).2]; exact List.nodup_nil
      · intro i m hi _; obtain ⟨a, b⟩ := ho i m hi; rw [a, b]; exact ⟨rfl, rfl⟩
      · intro h hh; cases hh; exact ⟨_, hv, rfl⟩
    · intro i m hi
      obtain ⟨a, b⟩ := ho i m hi
      rw [a, b]
      exact ⟨_, rfl, r.now, rfl, rfl⟩
    · intro i k hk _
      cases i with
      | succ i => simp at hk
      | zero =>
        simp at hk
        subst hk
        dsimp only
        rw [r.mems, b6]
        exact .snap hv rfl b1 b2
    · intro k hk
      unfold Spec.current at hk
      simp at hk
      subst hk
      dsimp only
      rw [r.mems, ← b5]
      exact cleanAt_self _
    · have : isDead (upd c.chk 0 (some ⟨none, [], true, false, c.now, (store true c.ads).2⟩)) 0 = false := by
        unfold isDead; rw [hv]
      unfold deadCnt
      rw [show List.range 1 = [0] from rfl, List.countP_singleton, this]
      rfl
    · intro _ i hi
      cases hi
      refine ⟨?_, ?_⟩
      · intro id n p x hid hp; rw [(ho id n hid).2] at hp; cases hp
      · intro id n hid; rw [(ho id n hid).1]; exact Nat.le_refl _

theorem create_rep {cf : List Cfg} {c : CP} {s : Spec} (r : Rep cf c s) (hne : s.chks.length ≠ 0) (force : Bool) :
    Rep cf (c.create_ force).1 (s.create force).1 ∧ (c.create_ force).2 = (s.create force).2 := by
  obtain ⟨p, k, hcur, hk⟩ := r.curSome hne
  obtain ⟨pn, hpn, e1, e2, e3⟩ := r.inUse hk (Or.inr hcur)
  have hhead : c.head = some 0 := by rw [r.head, if_neg hne]
  have htree := r.tree
  rw [hhead] at htree
  obtain ⟨hn, hhn, _⟩ := htree.headIn 0 rfl
  have htk := head_tick htree hhn p pn hpn
  have hs : s.create force = if s.chks.length = unidentified then (s, Res.threw) else if s.now < k.tick then (s, Res.threw)
      else (s.add (force || decide (k.dist ≥ s.thresh)) (if (force || decide (k.dist ≥ s.thresh)) then 0 else k.dist + 1),
        Res.created s.chks.length (force || decide (k.dist ≥ s.thresh))) := by
    unfold Spec.create Spec.current
    rw [hcur]
    simp only [Option.bind_some, hk]
  rw [hs]
  unfold CP.create_
  rw [r.next]
  by_cases c1 : s.chks.length = unidentified
  · rw [if_pos c1, if_pos c1]; exact ⟨r, rfl⟩
  rw [if_neg c1, if_neg c1, hhead]
  simp only [Option.bind_some, hhn]
  by_cases c2 : s.now < k.tick
  · rw [if_pos c2]
    by_cases c3 : c.now < hn.tick
    · rw [if_pos c3]; exact ⟨r, rfl⟩
    · rw [if_neg c3, r.cur, hcur]
      simp only [hpn]
      rw [if_pos (by rw [r.now, e1]; exact c2)]
      exact ⟨r, rfl⟩
  · rw [if_neg c2, if_neg (by rw [r.now]; omega), r.cur, hcur]
    simp only [hpn]
    rw [if_neg (by rw [r.now, e1]; exact c2)]
    obtain ⟨ns, _, hdist, _⟩ := (r.kept p k hk (Or.inr hcur)).load (p + 1) (by omega)
    rw [hdist, r.thresh]
    dsimp only
    generalize (force || decide (k.dist ≥ s.thresh)) = snap
    obtain ⟨c', h1, h2, h3, ⟨n, h4⟩, r'⟩ := newNode_rep r hcur hk (by omega) snap
    rw [h1]
    dsimp only
    cases snap with
    | false => simp only [Bool.false_eq_true, if_false]; exact ⟨r', trivial⟩
    | true =>
      simp only [if_true] at r' ⊢
      have hnd : n.deleted = false := by
        obtain ⟨k', g1, _, _, g4⟩ := r'.node _ n h4
        have : k'.deleted = false := by
          rw [r.next] at g1
          simp [Spec.add] at g1
          rw [← g1]
        rw [g4, this]
      obtain ⟨chk', dead', q1, q2, q3⟩ := cleanup_spec (cf := cf) (cur := c'.cur) (d := c.next) r'.tree h4 r'.dead
        (fun x hx => by
          rw [h2] at hx
          cases hx
          exact Or.inl ⟨n, h4, hnd⟩)
      rw [r.next] at q1
      rw [q1]
      exact ⟨r'.shrink q2 q3, rfl⟩

theorem load_rep {cf : List Cfg} {c : CP} {s : Spec} (r : Rep cf c s) (id : Nat) (hu : s.usable id = true) :
    Rep cf (c.load id).1 (s.step (.load id)).1 ∧ (c.load id).2 = (s.step (.load id)).2 := by
  unfold CP.load Spec.step
  dsimp only
  rcases Option.eq_none_or_eq_some s.chks[id]? with hk | ⟨k, hk⟩
  · rw [hk]
    have hc : c.chk id = none := by
      rcases Option.eq_none_or_eq_some (c.chk id) with h | ⟨n, h⟩
      · exact h
      · obtain ⟨k, h1, _⟩ := r.node id n h
        rw [hk] at h1
        cases h1
    rw [hc]
    exact ⟨r, rfl⟩
  · rw [hk]
    have hal : k.deleted = false := by
      unfold Spec.usable Spec.alive at hu
      rw [hk] at hu
      have := List.getElem?_eq_some_iff.1 hk |>.1
      have h2 : decide (s.chks.length ≤ id) = false := by simp; omega
      rw [h2] at hu
      simpa using hu
    obtain ⟨n, hn, e1, e2, e3⟩ := r.inUse hk (Or.inl hal)
    have hh := r.kept id k hk (Or.inl hal)
    obtain ⟨ns, b1, _, b3⟩ := hh.load (id + 1) (by omega)
    obtain ⟨ads', c1, c2, c3, c4⟩ := b3 c.ads r.good
    have hne : s.chks.length ≠ 0 := by have := List.getElem?_eq_some_iff.1 hk |>.1; omega
    obtain ⟨p, kp, hcur, hkp⟩ := r.curSome hne
    obtain ⟨pn, hpn, _⟩ := r.inUse hkp (Or.inr hcur)
    rw [hn]
    dsimp only
    have hl : Checkpoint.load c.chk id c.ads = some ads' := by
      unfold Checkpoint.load
      rw [b1]
      exact c1
    rw [hl]
    dsimp only
    rw [r.cur, hcur]
    dsimp only
    have r' : Rep cf { c with ads := ads', cur := some id, now := n.tick }
        { s with ads := setMems s.ads k.mems, cur := some id, now := k.tick, loaded := true } := by
      refine ⟨rep_setMems r.ads c3 c2 c4, ofS_setMems r.ofs (by rw [hh.length, r.ofs.length]), r.next, e1, r.thresh, rfl, r.head,
        fun h => absurd h hne, fun _ => ⟨id, k, rfl, hk⟩, r.tree, r.node, ?_, ?_, r.alive, r.snaps, r.dead, fun h => (by cases h)⟩
      · intro i k0 h0 hu0
        refine r.kept i k0 h0 (Or.inl ?_)
        rcases hu0 with hu0 | hu0
        · exact hu0
        · cases hu0
          have h0' : s.chks[id]? = some k0 := h0
          rw [hk] at h0'
          cases h0'
          exact hal
      · intro k0 h0
        have h0' : s.chks[id]? = some k0 := h0
        rw [hk] at h0'
        cases h0'
        dsimp only
        rw [← c4]
        exact cleanAt_self _
    obtain ⟨chk', dead', q1, q2, q3⟩ := cleanup_spec (cf := cf) (cur := some id) (d := p) r.tree hpn r.dead
      (fun x hx => by cases hx; exact Or.inl ⟨n, hn, e3.trans hal⟩)
    rw [q1]
    exact ⟨r'.shrink q2 q3, rfl⟩

end Sparta.Checkpoint
