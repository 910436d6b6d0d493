import Verif.Cherry.DB
/-! Committing preserves the relation, and what is saved stands for the committed checkpoints. -/
namespace Sparta.Cherry
open Sparta.Checkpoint
open Sparta.ArchData (AD)

/-! ### what is saved -/

theorem pick_all {chk : Map} : ∀ (q : List Nat), (∀ i ∈ q, ∃ n, chk i = some n) →
    ∃ l, pick chk q = some l ∧ l.length = q.length ∧ l.map (·.id) = q ∧
      ∀ (p j : Nat) (n : Node), q[p]? = some j → chk j = some n → l[p]? = some ⟨j, n.tick, n.snap, n.data⟩
  | [], _ => ⟨[], rfl, rfl, rfl, fun p j n h => by simp at h⟩
  | i :: q, h => by
    obtain ⟨n, hn⟩ := h i (List.mem_cons_self ..)
    obtain ⟨l, h1, h2, h3, h4⟩ := pick_all q (fun j hj => h j (List.mem_cons_of_mem _ hj))
    refine ⟨_, by unfold pick; rw [hn, h1], by simp [h2], by simp [h3], ?_⟩
    intro p j m hp hm
    cases p with
    | zero =>
      simp at hp
      subst hp
      rw [hn] at hm
      cases hm
      rfl
    | succ p =>
      simp at hp ⊢
      exact h4 p j m hp hm

theorem filterMap_get {α β : Type} {f : α → Option β} : ∀ (q : List α), (∀ i ∈ q, ∃ b, f i = some b) →
    (q.filterMap f).length = q.length ∧ ∀ p : Nat, (q.filterMap f)[p]? = q[p]?.bind f
  | [], _ => ⟨rfl, fun p => by simp⟩
  | a :: q, h => by
    obtain ⟨b, hb⟩ := h a (List.mem_cons_self ..)
    obtain ⟨h1, h2⟩ := filterMap_get q (fun j hj => h j (List.mem_cons_of_mem _ hj))
    rw [List.filterMap_cons_some hb]
    refine ⟨by simp [h1], ?_⟩
    intro p
    cases p with
    | zero => simp [hb]
    | succ p => simp [h2]

/-- the checkpoint before one on a path -/
theorem Rep.prevOn {cf : List Cfg} {c : CP} {s : Spec} (r : Rep cf c s) {i j p : Nat} {q t : List Nat} {k : Chk} {n : Node}
    (hk : s.chks i = some k) (hp : k.path = q ++ j :: t) (hn : c.chk j = some n) :
    (n.prev = none → q = []) ∧ (n.prev = some p → ∃ q', q = q' ++ [p]) := by
  obtain ⟨_, _, _, h4, _, _⟩ := r.path i k hk
  obtain ⟨kj, hkj, hpj⟩ := h4 q j t hp
  have o := r.node j n kj hn hkj
  constructor
  · intro e
    have := o.first e
    rw [hpj] at this
    cases q with
    | nil => rfl
    | cons a q => simp at this
  · intro e
    obtain ⟨kp, hkp, h⟩ := o.later p e
    rw [hpj] at h
    obtain ⟨⟨q', hq'⟩, _⟩ := r.path p kp hkp
    exact ⟨q', by rw [← hq']; exact List.append_cancel_right h⟩

theorem batch_of {cf : List Cfg} {c : CP} {s : Spec} (r : Rep cf c s) {i : Nat} {k : Chk} {q t : List Nat} (hk : s.chks i = some k)
    (hp : k.path = q ++ t) : ∃ l, pick c.chk q = some l ∧ l.map (·.id) = q ∧ l.length = q.length ∧ Batch cf l (q.filterMap s.memsOf) := by
  obtain ⟨_, _, _, h4, ⟨hd, tl, h5, h6⟩, _⟩ := r.path i k hk
  have hin : ∀ j ∈ q, ∃ kj, s.chks j = some kj := by
    intro j hj
    obtain ⟨a, b, e⟩ := List.append_of_mem hj
    obtain ⟨kj, h, _⟩ := h4 a j (b ++ t) (by rw [hp, e]; simp)
    exact ⟨kj, h⟩
  have hin' : ∀ j ∈ q, ∃ n, c.chk j = some n := by
    intro j hj
    obtain ⟨kj, h⟩ := hin j hj
    obtain ⟨n, hn, _⟩ := r.get h
    exact ⟨n, hn⟩
  obtain ⟨l, p1, p2, p3, p4⟩ := pick_all q hin'
  obtain ⟨f1, f2⟩ := filterMap_get (f := s.memsOf) q (fun j hj => by
    obtain ⟨kj, h⟩ := hin j hj
    exact ⟨_, by unfold Spec.memsOf; rw [h]; rfl⟩)
  have split : ∀ p j, q[p]? = some j → k.path = q.take p ++ j :: (q.drop (p + 1) ++ t) := by
    intro p j h
    obtain ⟨hlt, e⟩ := List.getElem?_eq_some_iff.1 h
    rw [hp]
    conv => lhs; rw [← List.take_append_drop p q]
    rw [List.append_assoc, List.drop_eq_getElem_cons hlt, e]
    rfl
  have before : ∀ p j n pr, q[p]? = some j → c.chk j = some n → n.prev = some pr → ∃ p', p = p' + 1 ∧ q[p']? = some pr := by
    intro p j n pr h hn hpr
    obtain ⟨q', e⟩ := (r.prevOn hk (split p j h) hn).2 hpr
    obtain ⟨hlt, _⟩ := List.getElem?_eq_some_iff.1 h
    have hl : (q.take p).length = p := by rw [List.length_take]; omega
    rw [e, List.length_append] at hl
    refine ⟨q'.length, by simp at hl; omega, ?_⟩
    have : (q.take p)[q'.length]? = some pr := by rw [e]; simp
    rw [List.getElem?_take_of_lt (by simp at hl; omega)] at this
    exact this
  have hwin : ∀ p j n, q[p]? = some j → c.chk j = some n → winMap l p =
      some ⟨if p = 0 then none else some (p - 1), if p + 1 < l.length then [p + 1] else [], n.snap, false, n.tick, n.data⟩ := by
    intro p j n hj hn
    unfold winMap
    rw [p4 p j n hj hn]
    rfl
  have holds : ∀ p j mems d, q[p]? = some j → Holds cf c.chk j mems d → Holds cf (winMap l) p mems d := by
    intro p
    induction p with
    | zero =>
      intro j mems d hj h
      cases h with
      | snap g1 g2 g3 g4 => exact .snap (hwin 0 j _ hj g1) g2 g3 g4
      | delta g1 g2 g3 g4 g5 g6 g7 =>
        obtain ⟨p', e, _⟩ := before 0 j _ _ hj g1 g3
        omega
    | succ p ih =>
      intro j mems d hj h
      cases h with
      | snap g1 g2 g3 g4 => exact .snap (hwin (p + 1) j _ hj g1) g2 g3 g4
      | delta g1 g2 g3 g4 g5 g6 g7 =>
        obtain ⟨p', e, he⟩ := before (p + 1) j _ _ hj g1 g3
        have : p' = p := by omega
        subst this
        exact .delta (hwin (p' + 1) j _ hj g1) g2 (by simp) (by omega) g5 g6 (ih _ _ _ he g7)
  refine ⟨l, p1, p3, p2, by rw [p2, f1], ?_, ?_, ?_⟩
  · intro sv hsv
    cases q with
    | nil => cases l with
      | nil => cases hsv
      | cons a l => simp at p2
    | cons a q =>
      rw [h5] at hp
      injection hp with e1 e2
      obtain ⟨n, hn⟩ := hin' a (List.mem_cons_self ..)
      have := p4 0 a n rfl hn
      rw [List.head?_eq_getElem?, this] at hsv
      cases hsv
      rw [← r.isSnap, e1] at h6
      unfold isSnap at h6
      rw [hn] at h6
      exact h6
  · apply ordered_of
    intro p a b ha hb
    have hlt := (List.getElem?_eq_some_iff.1 hb).1
    rw [p2] at hlt
    have g0 : q[p]? = some q[p] := List.getElem?_eq_getElem (by omega)
    have g1 : q[p + 1]? = some q[p + 1] := List.getElem?_eq_getElem (by omega)
    obtain ⟨n0, hn0⟩ := hin' _ (List.mem_of_getElem? g0)
    obtain ⟨n1, hn1⟩ := hin' _ (List.mem_of_getElem? g1)
    rw [p4 p _ n0 g0 hn0] at ha
    rw [p4 (p + 1) _ n1 g1 hn1] at hb
    cases ha
    cases hb
    dsimp only
    rcases Option.eq_none_or_eq_some n1.prev with hpr | ⟨pr, hpr⟩
    · have := (r.prevOn (p := 0) hk (split (p + 1) _ g1) hn1).1 hpr
      have hl : (q.take (p + 1)).length = p + 1 := by rw [List.length_take]; omega
      rw [this] at hl
      cases hl
    · obtain ⟨p', e, he⟩ := before (p + 1) _ n1 pr g1 hn1 hpr
      have : p' = p := by omega
      subst this
      rw [g0] at he
      injection he with he
      obtain ⟨_, m, hm, _, hle⟩ := r.tree.prevOk _ n1 pr hn1 hpr
      rw [← he, hn0] at hm
      cases hm
      exact hle
  · intro p cm hc
    rw [f2] at hc
    rcases Option.eq_none_or_eq_some q[p]? with hn | ⟨j, hj⟩
    · rw [hn] at hc; cases hc
    · rw [hj] at hc
      obtain ⟨kj, hkj⟩ := hin j (List.mem_of_getElem? hj)
      obtain ⟨n, hn, o⟩ := r.get hkj
      have hc : s.memsOf j = some cm := hc
      unfold Spec.memsOf at hc
      rw [hkj] at hc
      cases hc
      exact ⟨_, kj.dist, p4 p j n hj hn, o.tick, holds p j _ _ hj o.holds⟩

/-! ### what is kept -/

theorem keep_rep {cf : List Cfg} {c : CP} {s : Spec} (r : Rep cf c s) {cur x : Nat} {k : Chk} {q t : List Nat}
    (hcur : s.cur = some cur) (hk : s.chks cur = some k) (hp : k.path = q ++ x :: t) (hx : s.isSnap x = true)
    (ht : ∀ y ∈ t, s.isSnap y = false) (comm : List (Nat × List (Nat → UInt8))) :
    ∃ c', countDown c ((live c).filter (· ∉ x :: t)) = some c' ∧
      Rep cf { c' with chk := restrict (makeHead c.chk (some x)) (x :: t), head := some x }
        { s with chks := fun i => if i ∈ x :: t then (s.chks i).map fun k => { k with path := k.path.filter (· ∈ x :: t) } else none, committed := comm } := by
  obtain ⟨⟨_, g1⟩, g2, g3, g4, _, _⟩ := r.path cur k hk
  have hin : ∀ i ∈ x :: t, ∃ ki qi, s.chks i = some ki ∧ ki.path = q ++ x :: qi ∧ (∀ y ∈ x :: qi, y ∈ x :: t) := by
    intro i hi
    rcases List.mem_cons.1 hi with e | hi
    · subst e
      obtain ⟨ki, h1, h2⟩ := g4 q i t hp
      exact ⟨ki, [], h1, h2, by simp⟩
    · obtain ⟨a, b, e⟩ := List.append_of_mem hi
      obtain ⟨ki, h1, h2⟩ := g4 (q ++ x :: a) i b (by rw [hp, e]; simp)
      refine ⟨ki, a ++ [i], h1, by rw [h2]; simp, ?_⟩
      intro y hy
      rw [e]
      simp at hy ⊢
      rcases hy with h | h | h
      · exact Or.inl h
      · exact Or.inr (Or.inl h)
      · exact Or.inr (Or.inr (Or.inl h))
  have hqt : ∀ y ∈ q, y ∉ x :: t := by
    intro y hy h
    rw [hp, List.nodup_append] at g3
    exact g3.2.2 y hy y h rfl
  have hnode : ∀ i ∈ x :: t, ∃ n, c.chk i = some n := by
    intro i hi
    obtain ⟨ki, _, h1, _⟩ := hin i hi
    obtain ⟨n, hn, _⟩ := r.get h1
    exact ⟨n, hn⟩
  have hge : ∀ i ∈ x :: t, x ≤ i := by
    intro i hi
    obtain ⟨ki, qi, h1, h2, _⟩ := hin i hi
    exact (r.path i ki h1).2.1 x (by rw [h2]; simp)
  have hprev : ∀ i ∈ x :: t, i ≠ x → ∀ n, c.chk i = some n → ∃ p, n.prev = some p ∧ p ∈ x :: t := by
    intro i hi hne n hn
    have hi : i ∈ t := by
      rcases List.mem_cons.1 hi with e | hi
      · exact absurd e hne
      · exact hi
    obtain ⟨a, b, e⟩ := List.append_of_mem hi
    have hsp : k.path = (q ++ x :: a) ++ i :: b := by rw [hp, e]; simp
    rcases Option.eq_none_or_eq_some n.prev with hpr | ⟨p, hpr⟩
    · have := (r.prevOn (p := 0) hk hsp hn).1 hpr
      simp at this
    · obtain ⟨q', h⟩ := (r.prevOn hk hsp hn).2 hpr
      refine ⟨p, hpr, ?_⟩
      have hl : (q ++ x :: a).getLast? = some p := by rw [h]; simp
      rw [List.getLast?_append] at hl
      have hm : p ∈ x :: a := by
        cases hg : (x :: a).getLast? with
        | none => simp at hg
        | some z =>
          rw [hg] at hl
          have : z = p := by injection hl
          subst this
          exact List.mem_of_getLast? hg
      rw [e]
      simp at hm ⊢
      rcases hm with h | h
      · exact Or.inl h
      · exact Or.inr (Or.inl h)
  obtain ⟨nx, hnx⟩ := hnode x (List.mem_cons_self ..)
  have hsnap : nx.snap = true := by
    rw [← r.isSnap] at hx; unfold Cherry.isSnap at hx; rw [hnx] at hx; exact hx
  generalize hkp : x :: t = keep at *
  have hxk : x ∈ keep := by rw [← hkp]; exact List.mem_cons_self ..
  have hval : ∀ i n, i ∈ keep → c.chk i = some n → restrict (makeHead c.chk (some x)) keep i =
      some { n with prev := if i = x then none else n.prev, nexts := n.nexts.filter (· ∈ keep) } := by
    intro i n hi hn
    unfold restrict makeHead
    rw [if_pos hi]
    dsimp only
    rw [hnx]
    dsimp only
    by_cases e : i = x
    · subst e
      rw [hn] at hnx
      cases hnx
      simp [upd]
    · rw [upd_other _ _ e, hn, if_neg e]
      rfl
  have hno : ∀ i, i ∉ keep → restrict (makeHead c.chk (some x)) keep i = none := by
    intro i hi; unfold restrict; rw [if_neg hi]
  have hback : ∀ i m, restrict (makeHead c.chk (some x)) keep i = some m → i ∈ keep ∧ ∃ n, c.chk i = some n ∧
      m = { n with prev := if i = x then none else n.prev, nexts := n.nexts.filter (· ∈ keep) } := by
    intro i m h
    by_cases hi : i ∈ keep
    · obtain ⟨n, hn⟩ := hnode i hi
      rw [hval i n hi hn] at h
      cases h
      exact ⟨hi, n, hn, rfl⟩
    · rw [hno i hi] at h; cases h
  have holds : ∀ i mems d, Holds cf c.chk i mems d → i ∈ keep → Holds cf (restrict (makeHead c.chk (some x)) keep) i mems d := by
    intro i mems d h
    induction h with
    | snap a1 a2 a3 a4 => intro hi; exact .snap (hval _ _ hi a1) a2 a3 a4
    | @delta i p d n recss mems a1 a2 a3 a4 a5 a6 _ ih =>
      intro hi
      have hne : i ≠ x := by
        intro e; subst e; rw [a1] at hnx; cases hnx; rw [a2] at hsnap; cases hsnap
      obtain ⟨p', hp', hm⟩ := hprev i hi hne n a1
      rw [a3] at hp'
      cases hp'
      exact .delta (hval _ _ hi a1) a2 (by dsimp only; rw [if_neg hne]; exact a3) a4 a5 a6 (ih hm)
  -- counts
  have hids : s.ids.length = (s.ids.filter (· ∈ keep)).length + (s.ids.filter fun i => !decide (i ∈ keep)).length := length_split _ _
  have hcnt : s.snapCount = (s.ids.filter (· ∈ keep)).countP s.isSnap + (s.ids.filter fun i => !decide (i ∈ keep)).countP s.isSnap := countP_split _ _ _
  have hfil : (live c).filter (· ∉ keep) = s.ids.filter fun i => !decide (i ∈ keep) := by
    rw [r.live]
    apply List.filter_congr
    intro i _
    simp
  have hcd : countDown c ((live c).filter (· ∉ keep)) = some { c with alive := c.alive - (s.ids.filter fun i => !decide (i ∈ keep)).length, snaps := c.snaps - (s.ids.filter fun i => !decide (i ∈ keep)).countP s.isSnap } := by
    unfold countDown
    rw [hfil, r.isSnap', if_neg (by rw [r.alive, r.snaps]; omega)]
  refine ⟨_, hcd, ?_⟩
  generalize hs1 : ({ s with chks := fun i => if i ∈ keep then (s.chks i).map fun k => { k with path := k.path.filter (· ∈ keep) } else none, committed := comm } : Spec) = s1
  have hsv : ∀ i ki, i ∈ keep → s.chks i = some ki → s1.chks i = some { ki with path := ki.path.filter (· ∈ keep) } := by
    intro i ki hi h
    rw [← hs1]
    dsimp only
    rw [if_pos hi, h]
    rfl
  have hsn : ∀ i, i ∉ keep → s1.chks i = none := by
    intro i hi
    rw [← hs1]
    dsimp only
    rw [if_neg hi]
  have hcurk : cur ∈ keep := by
    have hl : k.path.getLast? = some cur := by rw [g1]; simp
    rw [hp, List.getLast?_append] at hl
    cases hg : keep.getLast? with
    | none => rw [← hkp] at hg; simp at hg
    | some z =>
      rw [hg] at hl
      have : z = cur := by injection hl
      subst this
      exact List.mem_of_getLast? hg
  have hids1 : s1.ids = s.ids.filter (· ∈ keep) := by
    unfold Spec.ids
    rw [List.filter_filter, ← hs1]
    apply List.filter_congr
    intro i _
    dsimp only
    by_cases hi : i ∈ keep
    · rw [if_pos hi]
      simp [hi]
    · rw [if_neg hi]
      simp [hi]
  have hc1 : s1.cur = s.cur := by rw [← hs1]
  refine ⟨⟨by rw [← hs1]; exact r.ads, by rw [← hs1]; exact r.ofs, by rw [← hs1]; exact r.next, by rw [← hs1]; exact r.now, by rw [← hs1]; exact r.thresh⟩, by rw [hc1]; exact r.cur, ?_, ?_, ?_, ?_, ?_, ?_, ?_, ?_⟩
  · intro h; rw [hc1, hcur] at h; cases h
  · intro i hi
    rw [hc1, hcur] at hi
    cases hi
    exact ⟨_, x, hsv cur k hcurk hk, rfl⟩
  · refine ⟨?_, ?_, ?_, ?_, ?_, ?_⟩
    · intro i m h
      obtain ⟨_, n, hn, _⟩ := hback i m h
      exact r.tree.lt i n hn
    · intro i m p h hpr
      obtain ⟨hi, n, hn, e⟩ := hback i m h
      subst e
      dsimp only at hpr
      by_cases e : i = x
      · rw [if_pos e] at hpr; cases hpr
      · rw [if_neg e] at hpr
        obtain ⟨p', hp', hm⟩ := hprev i hi e n hn
        rw [hpr] at hp'
        cases hp'
        obtain ⟨b1, m, b2, b3, b4⟩ := r.tree.prevOk i n p hn hpr
        refine ⟨b1, _, hval p m hm b2, ?_, b4⟩
        rw [List.mem_filter]
        exact ⟨b3, by simpa using hi⟩
    · intro i m j h hj
      obtain ⟨hi, n, hn, e⟩ := hback i m h
      subst e
      dsimp only at hj
      rw [List.mem_filter] at hj
      obtain ⟨mj, b1, b2⟩ := r.tree.nextOk i n j hn hj.1
      have hjk : j ∈ keep := by simpa using hj.2
      have hne : j ≠ x := by
        intro e
        subst e
        have := (r.tree.prevOk j mj i b1 b2).1
        have := hge i hi
        omega
      exact ⟨_, hval j mj hjk b1, by dsimp only; rw [if_neg hne]; exact b2⟩
    · intro i m h
      obtain ⟨hi, n, hn, e⟩ := hback i m h
      subst e
      exact (r.tree.nodup i n hn).sublist List.filter_sublist
    · intro i m h hpr
      obtain ⟨hi, n, hn, e⟩ := hback i m h
      subst e
      dsimp only at hpr ⊢
      by_cases e : i = x
      · subst e
        rw [hn] at hnx
        cases hnx
        exact ⟨rfl, hsnap⟩
      · rw [if_neg e] at hpr
        obtain ⟨p', hp', _⟩ := hprev i hi e n hn
        rw [hpr] at hp'
        cases hp'
    · intro h hh
      have : x = h := by injection hh
      subst this
      exact ⟨_, hval x nx hxk hnx, by dsimp only; rw [if_pos rfl]⟩
  · intro i
    dsimp only
    by_cases hi : i ∈ keep
    · obtain ⟨n, hn⟩ := hnode i hi
      obtain ⟨ki, _, h1, _⟩ := hin i hi
      rw [hval i n hi hn, hsv i ki hi h1]
      simp
    · rw [hno i hi, hsn i hi]
      simp
  · intro i m k1 h h1
    dsimp only at h ⊢
    obtain ⟨hi, n, hn, e⟩ := hback i m h
    obtain ⟨ki, qi, b1, b2, b3⟩ := hin i hi
    rw [hsv i ki hi b1] at h1
    cases h1
    subst e
    have o := r.node i n ki hn b1
    refine ⟨o.tick, o.snap, o.alive, holds i _ _ o.holds hi, ?_, ?_⟩
    · intro hpr
      dsimp only at hpr ⊢
      by_cases e : i = x
      · subst e
        obtain ⟨⟨q0, hq0⟩, _, hnd, _⟩ := r.path i ki b1
        have hqi : qi = [] := by
          cases hqi : qi with
          | nil => rfl
          | cons z zs =>
            exfalso
            have hl : (i :: qi).getLast? = some i := by
              have : ki.path.getLast? = some i := by rw [hq0]; simp
              rw [b2, List.getLast?_append] at this
              cases hg : (i :: qi).getLast? with
              | none => simp at hg
              | some z => rw [hg] at this; simpa using this
            rw [hqi, List.getLast?_cons_cons] at hl
            have hm := List.mem_of_getLast? hl
            rw [b2, hqi, List.nodup_append] at hnd
            exact (List.nodup_cons.1 hnd.2.1).1 hm
        rw [b2, hqi, List.filter_append, List.filter_eq_nil_iff.2 (fun y hy => by simpa using hqt y hy)]
        simp [hxk]
      · rw [if_neg e] at hpr
        obtain ⟨p', hp', _⟩ := hprev i hi e n hn
        rw [hpr] at hp'
        cases hp'
    · intro p hpr
      dsimp only at hpr ⊢
      by_cases e : i = x
      · rw [if_pos e] at hpr; cases hpr
      · rw [if_neg e] at hpr
        obtain ⟨p', hp', hm⟩ := hprev i hi e n hn
        rw [hpr] at hp'
        cases hp'
        obtain ⟨kp, d1, d2⟩ := o.later p hpr
        refine ⟨_, hsv p kp hm d1, ?_⟩
        rw [d2, List.filter_append]
        simp [hi]
  · intro k1 h1
    unfold Spec.current at h1
    rw [hc1, hcur, Option.bind_some, hsv cur k hcurk hk] at h1
    cases h1
    exact r.clean k (by unfold Spec.current; rw [hcur]; exact hk)
  · dsimp only
    have : s1.lost = s.lost := by rw [← hs1]
    rw [hids1, this, r.alive]
    omega
  · dsimp only
    have e1 : s1.lostSnaps = s.lostSnaps := by rw [← hs1]
    have e2 : s1.snapCount = (s.ids.filter (· ∈ keep)).countP s.isSnap := by
      unfold Spec.snapCount
      rw [hids1]
      apply List.countP_congr
      intro i hi
      rw [List.mem_filter] at hi
      have hi : i ∈ keep := by simpa using hi.2
      obtain ⟨ki, _, h1, _⟩ := hin i hi
      unfold Spec.isSnap
      rw [hsv i ki hi h1, h1]
    rw [e1, e2, r.snaps]
    omega

end Sparta.Cherry
