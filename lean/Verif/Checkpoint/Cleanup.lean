import Verif.Checkpoint.Tree
/-! What cleaning up keeps: the restore chains of all checkpoints still in use. -/
namespace Sparta.Checkpoint
open Sparta.ArchData

/-- restoring `a` uses `e` -/
inductive Needs (chk : Map) : Nat → Nat → Prop
  | refl (a : Nat) : Needs chk a a
  | step {a p e : Nat} {n : Node} : chk a = some n → n.snap = false → n.prev = some p → Needs chk p e → Needs chk a e

theorem Needs.snap {chk : Map} {a e : Nat} {n : Node} (h : Needs chk a e) (ha : chk a = some n) (hs : n.snap = true) :
    a = e := by
  cases h with
  | refl => rfl
  | step h1 h2 h3 h4 => rw [ha] at h1; cases h1; rw [hs] at h2; cases h2

theorem Needs.le {chk : Map} {next : Nat} {head : Option Nat} (t : Tree chk next head) {a e : Nat} (h : Needs chk a e) :
    e ≤ a := by
  induction h with
  | refl => omega
  | step h1 h2 h3 h4 ih => have := (t.prevOk _ _ _ h1 h3).1; omega

theorem Needs.trans {chk : Map} {a b c : Nat} (h : Needs chk a b) (g : Needs chk b c) : Needs chk a c := by
  induction h with
  | refl => exact g
  | step h1 h2 h3 h4 ih => exact .step h1 h2 h3 (ih g)

theorem Needs.last {chk : Map} {a e : Nat} (h : Needs chk a e) :
    a = e ∨ ∃ c m, Needs chk a c ∧ chk c = some m ∧ m.snap = false ∧ m.prev = some e := by
  induction h with
  | refl => exact Or.inl rfl
  | @step a p e n h1 h2 h3 h4 ih =>
    right
    rcases ih with h | ⟨c, m, g1, g2, g3, g4⟩
    · subst h
      exact ⟨a, n, .refl a, h1, h2, h3⟩
    · exact ⟨c, m, .step h1 h2 h3 g1, g2, g3, g4⟩

theorem canDelete_needs {chk : Map} {next : Nat} {head : Option Nat} (t : Tree chk next head) {a e : Nat}
    (h : Needs chk a e) : ∀ f, canDelete chk f e = true → ∃ f', canDelete chk f' a = true := by
  induction h with
  | refl => exact fun f hf => ⟨f, hf⟩
  | @step a p e n h1 h2 h3 h4 ih =>
    intro f hf
    obtain ⟨f', hf'⟩ := ih f hf
    obtain ⟨_, m, hm, hmem, _⟩ := t.prevOk _ _ _ h1 h3
    cases f' with
    | zero => cases hf'
    | succ f' =>
      unfold canDelete at hf'
      rw [hm] at hf'
      dsimp only at hf'
      rw [Bool.and_eq_true, List.all_eq_true] at hf'
      have := hf'.2 a hmem
      rw [h1] at this
      dsimp only at this
      rw [h2, Bool.or_false] at this
      exact ⟨f', this⟩

theorem canDelete_deleted {chk : Map} {f a : Nat} {n : Node} (h : canDelete chk f a = true) (ha : chk a = some n) :
    n.deleted = true := by
  cases f with
  | zero => cases h
  | succ f =>
    unfold canDelete at h
    rw [ha] at h
    dsimp only at h
    rw [Bool.and_eq_true] at h
    exact h.1

/-- checkpoint `id` restores to `mems`, and is `d` deltas after its snapshot -/
inductive Holds (cf : List Cfg) (chk : Map) : Nat → List (Nat → UInt8) → Nat → Prop
  | snap {id : Nat} {n : Node} {recss : List (List (Nat × Data))} : chk id = some n → n.snap = true →
      n.data = flat recss → All2 RecsIn cf recss → Holds cf chk id (applyAll cf recss (cf.map Cfg.blank)) 0
  | delta {id p d : Nat} {n : Node} {recss : List (List (Nat × Data))} {mems : List (Nat → UInt8)} : chk id = some n →
      n.snap = false → n.prev = some p → p < id → n.data = flat recss → All2 RecsIn cf recss → Holds cf chk p mems d →
      Holds cf chk id (applyAll cf recss mems) (d + 1)

theorem Holds.inMap {cf : List Cfg} {chk : Map} {a d : Nat} {mems : List (Nat → UInt8)} (h : Holds cf chk a mems d) :
    ∃ n, chk a = some n := by
  cases h with
  | snap h => exact ⟨_, h⟩
  | delta h => exact ⟨_, h⟩

/-- only data, kind and previous checkpoint of the elements matter -/
theorem Holds.mono {cf : List Cfg} {chk chk' : Map} {a d : Nat} {mems : List (Nat → UInt8)} (h : Holds cf chk a mems d)
    (k : ∀ i n, chk i = some n → ∃ n', chk' i = some n' ∧ n'.snap = n.snap ∧ n'.prev = n.prev ∧ n'.data = n.data) :
    Holds cf chk' a mems d := by
  induction h with
  | snap h1 h2 h3 h4 =>
    obtain ⟨n', a1, a2, a3, a4⟩ := k _ _ h1
    exact .snap a1 (a2.trans h2) (a4.trans h3) h4
  | delta h1 h2 h3 h4 h5 h6 _ ih =>
    obtain ⟨n', a1, a2, a3, a4⟩ := k _ _ h1
    exact .delta a1 (a2.trans h2) (a3.trans h3) h4 (a4.trans h5) h6 ih

theorem Holds.erased {cf : List Cfg} {chk chk' : Map} {e : Nat} {n : Node} (er : Erased chk chk' e n)
    {a d : Nat} {mems : List (Nat → UInt8)} (h : Holds cf chk a mems d) (hn : ¬ Needs chk a e) : Holds cf chk' a mems d := by
  induction h with
  | @snap id m recss h1 h2 h3 h4 =>
    have hne : id ≠ e := fun h => hn (h ▸ .refl _)
    obtain ⟨m', a1, a2, _⟩ := er.keep _ _ hne h1
    exact .snap a1 (a2.snap.trans h2) (a2.data.trans h3) h4
  | @delta id p d m recss mems h1 h2 h3 h4 h5 h6 _ ih =>
    have hne : id ≠ e := fun h => hn (h ▸ .refl _)
    obtain ⟨m', a1, a2, a3⟩ := er.keep _ _ hne h1
    have hpr : m'.prev = some p := by
      rcases a3 with ⟨a3, _⟩ | ⟨a3, _⟩
      · rw [a3, h3]
      · exact absurd (Needs.step h1 h2 a3 (.refl e)) hn
    exact .delta a1 (a2.snap.trans h2) hpr h4 (a2.data.trans h5) h6 (ih (fun g => hn (.step h1 h2 h3 g)))

theorem Needs.erased {chk chk' : Map} {x : Nat} {n : Node} (er : Erased chk chk' x n)
    {a e : Nat} (h : Needs chk' a e) (hn : ¬ Needs chk a x) : Needs chk a e := by
  induction h with
  | refl => exact .refl _
  | @step a p e m' h1 h2 h3 _ ih =>
    obtain ⟨hne, m, hm⟩ := er.back _ _ h1
    obtain ⟨m2, a1, a2, a3⟩ := er.keep _ _ hne hm
    rw [h1] at a1
    cases a1
    have hs : m.snap = false := by rw [← a2.snap]; exact h2
    rcases a3 with ⟨a3, _⟩ | ⟨a3, _⟩
    · rw [a3] at h3
      exact .step hm hs h3 (ih (fun g => hn (.step hm hs h3 g)))
    · exact absurd (Needs.step hm hs a3 (.refl x)) hn

/-! ### restoring -/

theorem loadNodes_append (a b : List Node) (ads : List AD) :
    loadNodes (a ++ b) ads = (loadNodes a ads).bind (loadNodes b) := by
  induction a generalizing ads with
  | nil => rfl
  | cons n a ih =>
    show (loadState n.snap ads n.data).bind (loadNodes (a ++ b)) = ((loadState n.snap ads n.data).bind (loadNodes a)).bind _
    cases loadState n.snap ads n.data with
    | none => rfl
    | some q => exact ih q

theorem Holds.load {cf : List Cfg} {chk : Map} {a d : Nat} {mems : List (Nat → UInt8)} (h : Holds cf chk a mems d) :
    ∀ fuel, a < fuel → ∃ ns, restoreChain chk fuel a = some ns ∧ distance chk fuel a = some d ∧
      ∀ ads, All2 Good cf ads → ∃ ads', loadNodes ns.reverse ads = some ads' ∧ All2 Good cf ads' ∧
        All2 AD.sameCfg ads ads' ∧ ads'.map AD.byteAt = mems := by
  induction h with
  | @snap id n recss h1 h2 h3 h4 =>
    intro fuel hf
    obtain ⟨fuel, rfl⟩ : ∃ k, fuel = k + 1 := ⟨fuel - 1, by omega⟩
    refine ⟨[n], ?_, ?_, ?_⟩
    · unfold restoreChain; rw [h1]; simp only [h2, if_true]
    · unfold distance; rw [h1]; simp only [h2, if_true]
    · intro ads hg
      obtain ⟨ads', a1, a2, a3, a4⟩ := loadState_spec true cf ads recss hg h4
      refine ⟨ads', ?_, a2, a3, by simpa using a4⟩
      show (loadState n.snap ads n.data).bind _ = _
      rw [h2, h3, a1]
      rfl
  | @delta id p d n recss mems h1 h2 h3 h4 h5 h6 h7 ih =>
    intro fuel hf
    obtain ⟨fuel, rfl⟩ : ∃ k, fuel = k + 1 := ⟨fuel - 1, by omega⟩
    obtain ⟨ns, b1, b2, b3⟩ := ih fuel (by omega)
    refine ⟨n :: ns, ?_, ?_, ?_⟩
    · unfold restoreChain; rw [h1]; simp only [h2, h3, b1, Bool.false_eq_true, if_false, Option.map_some]
    · unfold distance; rw [h1]; simp only [h2, h3, b2, Bool.false_eq_true, if_false, Option.map_some]
    · intro ads hg
      obtain ⟨ads1, c1, c2, c3, c4⟩ := b3 ads hg
      obtain ⟨ads', a1, a2, a3, a4⟩ := loadState_spec false cf ads1 recss c2 h6
      refine ⟨ads', ?_, a2, ?_, by rw [a4, c4]; simp⟩
      · rw [List.reverse_cons, loadNodes_append, c1]
        show (loadState n.snap ads1 n.data).bind _ = _
        rw [h2, h5, a1]
        rfl
      · exact c3.trans (fun _ _ _ h g => h.trans g) a3

/-! ### a chain without branches -/

structure Lin (chk : Map) (cur : Nat) : Prop where
  gap : ∀ id n p x, chk id = some n → n.prev = some p → p < x → x < id → chk x = none
  top : ∀ id n, chk id = some n → id ≤ cur

theorem Lin.through {chk : Map} {next : Nat} {head : Option Nat} (t : Tree chk next head) {cur : Nat} (l : Lin chk cur)
    {a e d : Nat} {m : Node} (h : Needs chk a e) (hd : chk d = some m) (h1 : e ≤ d) (h2 : d ≤ a) :
    Needs chk a d ∧ Needs chk d e := by
  induction h with
  | refl a => have : a = d := by omega
              subst this; exact ⟨.refl _, .refl _⟩
  | @step a p e n g1 g2 g3 g4 ih =>
    by_cases hp : d ≤ p
    · exact ⟨.step g1 g2 g3 (ih h1 hp).1, (ih h1 hp).2⟩
    · by_cases ha : d = a
      · subst ha; exact ⟨.refl _, .step g1 g2 g3 g4⟩
      · have := l.gap a n p d g1 g3 (by omega) (by omega)
        rw [hd] at this
        cases this

theorem Lin.only {chk : Map} {next : Nat} {head : Option Nat} (t : Tree chk next head) {cur : Nat} (l : Lin chk cur)
    {d c : Nat} {n : Node} (hd : chk d = some n) (hc : c ∈ n.nexts) : n.nexts = [c] := by
  have all : ∀ x ∈ n.nexts, x = c := by
    intro x hx
    obtain ⟨mx, hmx, hpx⟩ := t.nextOk d n x hd hx
    obtain ⟨mc, hmc, hpc⟩ := t.nextOk d n c hd hc
    have g1 := t.child_gt hd hx
    have g2 := t.child_gt hd hc
    by_cases h : x = c
    · exact h
    · by_cases hlt : x < c
      · have := l.gap c mc d x hmc hpc g1 hlt
        rw [hmx] at this
        cases this
      · have := l.gap x mx d c hmx hpx g2 (by omega)
        rw [hmc] at this
        cases this
  have nd := t.nodup d n hd
  cases hn : n.nexts with
  | nil => rw [hn] at hc; cases hc
  | cons x xs =>
    rw [hn] at all nd
    have hx := all x (List.mem_cons_self ..)
    cases xs with
    | nil => rw [hx]
    | cons y ys =>
      have hy := all y (List.mem_cons_of_mem _ (List.mem_cons_self ..))
      rw [List.nodup_cons] at nd
      exact absurd (by rw [hx, hy]; exact List.mem_cons_self ..) nd.1

theorem Lin.findAlive {chk : Map} {next : Nat} {head : Option Nat} (t : Tree chk next head) {cur : Nat} (l : Lin chk cur) :
    ∀ fuel d n, chk d = some n → Needs chk cur d → d < cur → cur - d ≤ fuel → findAlive chk (some cur) fuel d = true := by
  intro fuel
  induction fuel with
  | zero => intro d n _ _ h1 h2; omega
  | succ fuel ih =>
    intro d n hd hnd h1 h2
    rcases hnd.last with h | ⟨c, m, g1, g2, g3, g4⟩
    · omega
    · obtain ⟨hlt, m2, hm2, hmem, _⟩ := t.prevOk c m d g2 g4
      rw [hd] at hm2
      cases hm2
      have hle : c ≤ cur := Needs.le t g1
      unfold Checkpoint.findAlive
      rw [hd]
      dsimp only
      rw [l.only t hd hmem]
      simp only [List.foldr_cons, List.foldr_nil, g2, g3, Bool.false_eq_true, if_false, Bool.or_false]
      by_cases hc : cur = c
      · simp [hc]
      · have hc' : ¬ some cur = some c := fun h => hc (by injection h)
        rw [if_neg hc']
        by_cases hdel : m.deleted = false
        · rw [if_pos hdel]
        · rw [if_neg hdel]
          exact ih c m g2 g1 (by omega) (by omega)

theorem Lin.erased {chk chk' : Map} {next : Nat} {head : Option Nat} (t : Tree chk next head) {e : Nat} {n : Node}
    (he : chk e = some n) (er : Erased chk chk' e n) {cur : Nat} (l : Lin chk cur) : Lin chk' cur := by
  refine ⟨?_, ?_⟩
  · intro id m' p x h1 h2 h3 h4
    obtain ⟨hne, m, hm⟩ := er.back _ _ h1
    obtain ⟨m2, a1, a2, a3⟩ := er.keep _ _ hne hm
    rw [h1] at a1
    cases a1
    have hx : ∀ y, chk y = none → chk' y = none := by
      intro y hy
      rcases Option.eq_none_or_eq_some (chk' y) with h | ⟨q, h⟩
      · exact h
      · obtain ⟨_, z, hz⟩ := er.back _ _ h
        rw [hy] at hz
        cases hz
    rcases a3 with ⟨a3, _⟩ | ⟨a3, a4⟩
    · rw [a3] at h2
      exact hx _ (l.gap id m p x hm h2 h3 h4)
    · rw [a4] at h2
      by_cases hxe : x = e
      · rw [hxe]; exact er.gone
      · by_cases hlt : x < e
        · exact hx _ (l.gap e n p x he h2 h3 hlt)
        · exact hx _ (l.gap id m e x hm a3 (by omega) h4)
  · intro id m' h1
    obtain ⟨_, m, hm⟩ := er.back _ _ h1
    exact l.top id m hm

/-! ### cleaning up -/

def isDead (chk : Map) (i : Nat) : Bool := match chk i with | some n => n.deleted | none => false

/-- the checkpoints that are flagged but still present -/
def deadCnt (chk : Map) (next : Nat) : Nat := (List.range next).countP (isDead chk)

structure Shrink (cf : List Cfg) (next : Nat) (head cur : Option Nat) (chk chk' : Map) : Prop where
  tree : Tree chk' next head
  keep : ∀ i m, chk i = some m → (m.deleted = false ∨ cur = some i ∨ head = some i) →
    ∃ m', chk' i = some m' ∧ SameNode m m'
  back : ∀ i m', chk' i = some m' → ∃ m, chk i = some m ∧ SameNode m m'
  holds : ∀ a m mems d, chk a = some m → (m.deleted = false ∨ cur = some a) → Holds cf chk a mems d → Holds cf chk' a mems d
  lin : ∀ c, Lin chk c → Lin chk' c

theorem Shrink.refl {cf : List Cfg} {next : Nat} {head cur : Option Nat} {chk : Map} (t : Tree chk next head) :
    Shrink cf next head cur chk chk :=
  ⟨t, fun _ m h _ => ⟨m, h, .refl m⟩, fun _ m h => ⟨m, h, .refl m⟩, fun _ _ _ _ _ _ h => h, fun _ h => h⟩

theorem Shrink.trans {cf : List Cfg} {next : Nat} {head cur : Option Nat} {a b c : Map}
    (h : Shrink cf next head cur a b) (g : Shrink cf next head cur b c) : Shrink cf next head cur a c := by
  refine ⟨g.tree, ?_, ?_, ?_, fun x hx => g.lin x (h.lin x hx)⟩
  · intro i m hi hk
    obtain ⟨m1, h1, s1⟩ := h.keep i m hi hk
    obtain ⟨m2, h2, s2⟩ := g.keep i m1 h1 (by rw [s1.deleted]; exact hk)
    exact ⟨m2, h2, s1.trans s2⟩
  · intro i m hi
    obtain ⟨m1, h1, s1⟩ := g.back i m hi
    obtain ⟨m2, h2, s2⟩ := h.back i m1 h1
    exact ⟨m2, h2, s2.trans s1⟩
  · intro x m mems d hx hk hh
    have h1 := h.holds x m mems d hx hk hh
    obtain ⟨m1, hm1, s1⟩ := h.keep x m hx (by rcases hk with hk | hk; · exact Or.inl hk
                                              · exact Or.inr (Or.inl hk))
    exact g.holds x m1 mems d hm1 (by rw [s1.deleted]; exact hk) h1

theorem countP_range_change {p q : Nat → Bool} {e n : Nat} (he : e < n) (hp : p e = true) (hq : q e = false)
    (h : ∀ i, i ≠ e → p i = q i) : (List.range n).countP p = (List.range n).countP q + 1 := by
  induction n with
  | zero => omega
  | succ n ih =>
    rw [List.range_succ, List.countP_append, List.countP_append, List.countP_singleton, List.countP_singleton]
    by_cases hn : e = n
    · subst hn
      have : (List.range e).countP p = (List.range e).countP q := by
        apply List.countP_congr
        intro x hx
        rw [List.mem_range] at hx
        rw [h x (by omega)]
      rw [this, hp, hq]
      simp
    · rw [ih (by omega), h n (fun h => hn h.symm)]
      omega

theorem Erased.dead {chk chk' : Map} {e : Nat} {n : Node} (er : Erased chk chk' e n) (he : chk e = some n)
    (hd : n.deleted = true) {next : Nat} (hlt : e < next) : deadCnt chk next = deadCnt chk' next + 1 := by
  apply countP_range_change hlt
  · unfold isDead; rw [he]; exact hd
  · unfold isDead; rw [er.gone]
  · intro i hi
    unfold isDead
    rcases Option.eq_none_or_eq_some (chk i) with h | ⟨m, h⟩
    · rcases Option.eq_none_or_eq_some (chk' i) with h' | ⟨m', h'⟩
      · rw [h, h']
      · obtain ⟨_, m, hm⟩ := er.back _ _ h'
        rw [h] at hm
        cases hm
    · obtain ⟨m', a1, a2, _⟩ := er.keep i m hi h
      rw [h, a1]
      exact a2.deleted.symm

/-- nothing at or below `d` is needed by the current checkpoint, unless that is in use anyway -/
def Safe (chk : Map) (cur : Option Nat) (d : Nat) : Prop :=
  ∀ c, cur = some c → (∃ m, chk c = some m ∧ m.deleted = false) ∨ ∀ e, e ≤ d → e ≠ c → ¬ Needs chk c e

theorem loop_spec {cf : List Cfg} {next : Nat} {head cur : Option Nat} (depth : Nat) :
    ∀ (fuel : Nat) (chk : Map) (dead : Nat) (od : Option Nat), Tree chk next head →
    (∀ d, od = some d → (∃ n, chk d = some n) ∧ d < fuel ∧ Safe chk cur d) → dead = deadCnt chk next →
    ∃ chk' dead', cleanupLoop cur head fuel chk dead od depth = some (chk', dead') ∧
      Shrink cf next head cur chk chk' ∧ dead' = deadCnt chk' next := by
  intro fuel
  induction fuel with
  | zero =>
    intro chk dead od t h hdead
    cases od with
    | none => exact ⟨chk, dead, rfl, .refl t, hdead⟩
    | some d => have := (h d rfl).2.1; omega
  | succ fuel ih =>
    intro chk dead od t h hdead
    cases od with
    | none => exact ⟨chk, dead, rfl, .refl t, hdead⟩
    | some d =>
      obtain ⟨⟨n, hn⟩, hlt, hs⟩ := h d rfl
      unfold cleanupLoop
      rw [hn]
      dsimp only
      by_cases c1 : head = some d
      · exact ⟨chk, dead, by rw [if_pos c1], .refl t, hdead⟩
      rw [if_neg c1]
      by_cases c2 : n.deleted = false
      · exact ⟨chk, dead, by rw [if_pos c2], .refl t, hdead⟩
      rw [if_neg c2]
      by_cases c3 : cur = some d
      · exact ⟨chk, dead, by rw [if_pos c3], .refl t, hdead⟩
      rw [if_neg c3]
      have hdel : n.deleted = true := by simpa using c2
      have hpn : ∀ p, n.prev = some p → (∃ m, chk p = some m) ∧ p < d := by
        intro p hp
        obtain ⟨a1, m, a2, _⟩ := t.prevOk d n p hn hp
        exact ⟨⟨m, a2⟩, a1⟩
      by_cases c4 : canDelete chk depth d = true
      · rw [if_pos c4]
        obtain ⟨chk1, e1, er, t1⟩ := erase_spec t hn c1
        rw [e1]
        dsimp only
        have hcnt := er.dead hn hdel (t.lt d n hn)
        have notneeded : ∀ a m, chk a = some m → (m.deleted = false ∨ cur = some a) → ¬ Needs chk a d := by
          intro a m ha hk hnd
          have alive : m.deleted = false → False := by
            intro hm
            obtain ⟨f', hf'⟩ := canDelete_needs t hnd depth c4
            have := canDelete_deleted hf' ha
            rw [hm] at this
            cases this
          rcases hk with hk | hk
          · exact alive hk
          · rcases hs a hk with ⟨m2, h2, h3⟩ | h2
            · rw [ha] at h2; cases h2; exact alive h3
            · exact h2 d (Nat.le_refl _) (fun h => c3 (h ▸ hk)) hnd
        have sh : Shrink cf next head cur chk chk1 := by
          refine ⟨t1, ?_, ?_, ?_, fun c hc => hc.erased t hn er⟩
          · intro i m hi hk
            have hid : i ≠ d := by
              intro h
              subst h
              rw [hn] at hi
              cases hi
              rcases hk with hk | hk | hk
              · rw [hdel] at hk; cases hk
              · exact c3 hk
              · exact c1 hk
            obtain ⟨m', a1, a2, _⟩ := er.keep i m hid hi
            exact ⟨m', a1, a2⟩
          · intro i m' hi
            obtain ⟨hid, m, hm⟩ := er.back i m' hi
            obtain ⟨m2, a1, a2, _⟩ := er.keep i m hid hm
            rw [hi] at a1
            cases a1
            exact ⟨m, hm, a2⟩
          · intro a m mems k ha hk hh
            exact hh.erased er (notneeded a m ha hk)
        obtain ⟨chk', dead', b1, b2, b3⟩ := ih chk1 (dead - 1) n.prev t1 (by
          intro p hp
          obtain ⟨⟨m, hm⟩, hpd⟩ := hpn p hp
          obtain ⟨m', a1, _⟩ := er.keep p m (by omega) hm
          refine ⟨⟨m', a1⟩, by omega, ?_⟩
          intro c hc
          rcases hs c hc with ⟨m2, h2, h3⟩ | h2
          · obtain ⟨m3, h4, h5⟩ := sh.keep c m2 h2 (Or.inl h3)
            exact Or.inl ⟨m3, h4, h5.deleted.trans h3⟩
          · refine Or.inr fun e he hec hnd => ?_
            have hcd : ¬ Needs chk c d := h2 d (Nat.le_refl _) (fun h => c3 (h ▸ hc))
            exact h2 e (by omega) hec (hnd.erased er hcd)) (by omega)
        exact ⟨chk', dead', b1, sh.trans b2, b3⟩
      · rw [if_neg c4]
        exact ih chk dead n.prev t (by
          intro p hp
          obtain ⟨hm, hpd⟩ := hpn p hp
          refine ⟨hm, by omega, ?_⟩
          intro c hc
          rcases hs c hc with h2 | h2
          · exact Or.inl h2
          · exact Or.inr fun e he => h2 e (by omega)) hdead

theorem cleanup_spec {cf : List Cfg} {next : Nat} {head cur : Option Nat} {chk : Map} {dead d : Nat} {n : Node}
    (t : Tree chk next head) (hd : chk d = some n) (hdead : dead = deadCnt chk next)
    (hs : ∀ c, cur = some c → (∃ m, chk c = some m ∧ m.deleted = false) ∨ (Lin chk c ∧ ∃ m, chk c = some m) ∨ c = d) :
    ∃ chk' dead', cleanup cur head next chk dead d = some (chk', dead') ∧
      Shrink cf next head cur chk chk' ∧ dead' = deadCnt chk' next := by
  unfold cleanup
  by_cases c1 : head = some d
  · exact ⟨chk, dead, by rw [if_pos c1], .refl t, hdead⟩
  rw [if_neg c1, hd]
  dsimp only
  have hlt := t.lt d n hd
  by_cases c2 : cur = some d ∨ findAlive chk cur next d = true
  · rw [if_pos c2]
    by_cases c3 : n.snap = true
    · rw [if_pos c3]
      apply loop_spec next next chk dead n.prev t _ hdead
      intro p hp
      obtain ⟨a1, m, a2, _⟩ := t.prevOk d n p hd hp
      refine ⟨⟨m, a2⟩, by omega, ?_⟩
      intro c hc
      rcases hs c hc with h | ⟨hl, mc, hmc⟩ | h
      · exact Or.inl h
      · refine Or.inr fun e he hec hnd => ?_
        have hdc : d ≤ c := hl.top d n hd
        have := (hl.through t hnd hd (by omega) hdc).2.snap hd c3
        omega
      · subst h
        exact Or.inr fun e he hec hnd => hec (hnd.snap hd c3).symm
    · rw [if_neg c3]; exact ⟨chk, dead, rfl, .refl t, hdead⟩
  · rw [if_neg c2, not_or] at *
    apply loop_spec next next chk dead (some d) t _ hdead
    intro p hp
    cases hp
    refine ⟨⟨n, hd⟩, hlt, ?_⟩
    intro c hc
    rcases hs c hc with h | ⟨hl, mc, hmc⟩ | h
    · exact Or.inl h
    · refine Or.inr fun e he hec hnd => ?_
      have hdc : d ≤ c := hl.top d n hd
      have h1 := (hl.through t hnd hd he hdc).1
      have hne : d ≠ c := fun h => c2.1 (h ▸ hc)
      have hcn := t.lt c mc hmc
      have := hl.findAlive t next d n hd h1 (by omega) (by omega)
      rw [hc] at c2
      exact c2.2 this
    · subst h
      exact absurd hc c2.1

end Sparta.Checkpoint
