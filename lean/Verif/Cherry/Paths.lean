import Verif.Cherry.Spec
import Verif.Checkpoint.Lemmas2
/-! The relation between the checkpointer and its specification, and branches of the tree. -/
namespace Sparta.Cherry
open Sparta.Checkpoint
open Sparta.ArchData (AD)

/-- one checkpoint that is kept -/
structure NodeOk (cf : List Cfg) (chk : Map) (chks : Nat → Option Chk) (i : Nat) (n : Node) (k : Chk) : Prop where
  tick : n.tick = k.tick
  snap : n.snap = k.snap
  alive : n.deleted = false
  holds : Holds cf chk i k.mems k.dist
  first : n.prev = none → k.path = [i]
  later : ∀ p, n.prev = some p → ∃ kp, chks p = some kp ∧ k.path = kp.path ++ [i]

structure Base (cf : List Cfg) (c : CP) (s : Spec) : Prop where
  ads : All2 ArchData.Rep c.ads s.ads
  ofs : All2 OfS cf s.ads
  next : c.next = s.next
  now : c.now = s.now
  thresh : c.thresh = s.thresh

structure Rep (cf : List Cfg) (c : CP) (s : Spec) : Prop extends Base cf c s where
  cur : c.cur = s.cur
  curNone : s.cur = none → c.head = none ∧ ∀ i, s.chks i = none
  curSome : ∀ i, s.cur = some i → ∃ k h, s.chks i = some k ∧ c.head = some h
  tree : Tree c.chk c.next c.head
  absent : ∀ i, c.chk i = none ↔ s.chks i = none
  node : ∀ i n k, c.chk i = some n → s.chks i = some k → NodeOk cf c.chk s.chks i n k
  clean : ∀ k, s.current = some k → All2 CleanAt c.ads k.mems
  alive : c.alive = s.ids.length + s.lost
  snaps : c.snaps = s.snapCount + s.lostSnaps

theorem Base.good {cf : List Cfg} {c : CP} {s : Spec} (r : Base cf c s) : All2 Good cf c.ads := good_of r.ads r.ofs

theorem Base.mems {cf : List Cfg} {c : CP} {s : Spec} (r : Base cf c s) : s.mems = c.ads.map AD.byteAt := mems_of r.ads

theorem Rep.get {cf : List Cfg} {c : CP} {s : Spec} (r : Rep cf c s) {i : Nat} {k : Chk} (h : s.chks i = some k) :
    ∃ n, c.chk i = some n ∧ NodeOk cf c.chk s.chks i n k := by
  rcases Option.eq_none_or_eq_some (c.chk i) with hn | ⟨n, hn⟩
  · rw [(r.absent i).1 hn] at h; cases h
  · exact ⟨n, hn, r.node i n k hn h⟩

theorem Rep.back {cf : List Cfg} {c : CP} {s : Spec} (r : Rep cf c s) {i : Nat} {n : Node} (h : c.chk i = some n) :
    ∃ k, s.chks i = some k ∧ NodeOk cf c.chk s.chks i n k := by
  rcases Option.eq_none_or_eq_some (s.chks i) with hn | ⟨k, hn⟩
  · rw [(r.absent i).2 hn] at h; cases h
  · exact ⟨k, hn, r.node i n k h hn⟩

theorem Rep.isSome {cf : List Cfg} {c : CP} {s : Spec} (r : Rep cf c s) (i : Nat) : (c.chk i).isSome = (s.chks i).isSome := by
  rcases Option.eq_none_or_eq_some (c.chk i) with hn | ⟨n, hn⟩
  · rw [hn, (r.absent i).1 hn]; rfl
  · obtain ⟨k, hk, _⟩ := r.back hn
    rw [hn, hk]; rfl

theorem Rep.live {cf : List Cfg} {c : CP} {s : Spec} (r : Rep cf c s) : live c = s.ids := by
  unfold Cherry.live Spec.ids
  rw [r.next]
  exact List.filter_congr (fun i _ => r.isSome i)

theorem Rep.isSnap {cf : List Cfg} {c : CP} {s : Spec} (r : Rep cf c s) (i : Nat) : Cherry.isSnap c.chk i = s.isSnap i := by
  unfold Cherry.isSnap Spec.isSnap
  rcases Option.eq_none_or_eq_some (c.chk i) with hn | ⟨n, hn⟩
  · rw [hn, (r.absent i).1 hn]
  · obtain ⟨k, hk, o⟩ := r.back hn
    rw [hn, hk]; exact o.snap

theorem Rep.isSnap' {cf : List Cfg} {c : CP} {s : Spec} (r : Rep cf c s) : Cherry.isSnap c.chk = s.isSnap := funext r.isSnap

theorem Rep.noDead {cf : List Cfg} {c : CP} {s : Spec} (r : Rep cf c s) (l : List Nat) : l.any (Cherry.isDead c.chk) = false := by
  rw [List.any_eq_false]
  intro i _
  unfold Cherry.isDead
  rcases Option.eq_none_or_eq_some (c.chk i) with hn | ⟨n, hn⟩
  · rw [hn]; simp
  · obtain ⟨k, _, o⟩ := r.back hn
    rw [hn]; simp [o.alive]

/-! ### the path to a checkpoint -/

/-- the path ends in the checkpoint, and every checkpoint on it has as its path the part up to it -/
theorem Rep.path {cf : List Cfg} {c : CP} {s : Spec} (r : Rep cf c s) : ∀ (i : Nat) (k : Chk), s.chks i = some k →
    (∃ q, k.path = q ++ [i]) ∧ (∀ j ∈ k.path, j ≤ i) ∧ k.path.Nodup ∧
    (∀ q j t, k.path = q ++ j :: t → ∃ kj, s.chks j = some kj ∧ kj.path = q ++ [j]) ∧
    (∃ h t, k.path = h :: t ∧ s.isSnap h = true) ∧
    (chainIds c.chk (i + 1) i).reverse = k.path := by
  intro i
  induction i using Nat.strongRecOn with
  | ind i ih =>
    intro k hk
    obtain ⟨n, hn, o⟩ := r.get hk
    rcases Option.eq_none_or_eq_some n.prev with hp | ⟨p, hp⟩
    · have e := o.first hp
      refine ⟨⟨[], e⟩, ?_, ?_, ?_, ?_, ?_⟩
      · rw [e]; simp
      · rw [e]; simp
      · intro q j t h
        rw [e] at h
        cases q with
        | nil =>
          rw [List.nil_append] at h
          injection h with h1 h2
          subst h1
          exact ⟨k, hk, e⟩
        | cons a q => injection h with h1 h2; simp at h2
      · refine ⟨i, [], e, ?_⟩
        rw [← r.isSnap]
        unfold Cherry.isSnap
        rw [hn]
        exact (r.tree.root i n hn hp).2
      · unfold chainIds
        rw [hn]
        simp only [o.alive, hp, e, Bool.false_eq_true, if_false, List.reverse_cons, List.reverse_nil, List.nil_append]
    · obtain ⟨hlt, m, hm, _, _⟩ := r.tree.prevOk i n p hn hp
      obtain ⟨kp, hkp, e⟩ := o.later p hp
      obtain ⟨_, b2, b3, b4, ⟨h, t, b5, b6⟩, b7⟩ := ih p hlt kp hkp
      refine ⟨⟨_, e⟩, ?_, ?_, ?_, ⟨h, t ++ [i], by rw [e, b5]; rfl, b6⟩, ?_⟩
      · intro j hj
        rw [e] at hj
        rcases List.mem_append.1 hj with hj | hj
        · have := b2 j hj; omega
        · simp at hj; omega
      · rw [e, List.nodup_append]
        refine ⟨b3, by simp, ?_⟩
        intro a ha b hb
        have := b2 a ha
        simp at hb
        omega
      · intro q j t' h'
        rw [e] at h'
        rcases List.append_eq_append_iff.1 h' with ⟨a, h1, h2⟩ | ⟨a, h1, h2⟩
        · cases a with
          | nil =>
            simp at h2
            rw [← h2.1]
            refine ⟨k, hk, ?_⟩
            rw [e, h1, List.append_nil]
          | cons x a =>
            exfalso
            have := congrArg List.length h2
            simp at this
        · cases a with
          | nil =>
            simp at h1 h2
            rw [h2.1]
            refine ⟨k, hk, ?_⟩
            rw [e, h1]
          | cons x a =>
            injection h2 with h3 h4
            subst h3
            exact b4 q j a h1
      · unfold chainIds
        rw [hn]
        have hfuel : ∀ (f g x : Nat), x < f → x < g → chainIds c.chk f x = chainIds c.chk g x := by
          intro f
          induction f with
          | zero => intro g x h; omega
          | succ f ihf =>
            intro g x h1 h2
            cases g with
            | zero => omega
            | succ g =>
              unfold chainIds
              rcases Option.eq_none_or_eq_some (c.chk x) with hx | ⟨nx, hx⟩
              · rw [hx]
              · rw [hx]
                dsimp only
                rcases Option.eq_none_or_eq_some nx.prev with hq | ⟨y, hq⟩
                · rw [hq]
                · rw [hq]
                  dsimp only
                  have := (r.tree.prevOk x nx y hx hq).1
                  rw [ihf g y (by omega) (by omega)]
        simp only [o.alive, hp, Bool.false_eq_true, if_false, List.reverse_cons]
        rw [hfuel i (p + 1) p hlt (by omega), b7, e]

/-! ### the last snapshot -/

theorem recent_eq {snap : Nat → Bool} : ∀ (l : List Nat), l ≠ [] → ∃ q r t, l = q ++ r :: t ∧ recent snap l = r :: t ∧
    (∀ x ∈ t, snap x = false) ∧ ((∃ x ∈ l, snap x = true) → snap r = true)
  | [], h => absurd rfl h
  | i :: l, _ => by
    unfold recent
    by_cases h : l.any snap = true
    · rw [if_pos h]
      have hne : l ≠ [] := by intro e; rw [e] at h; cases h
      obtain ⟨q, r, t, h1, h2, h3, h4⟩ := recent_eq (snap := snap) l hne
      refine ⟨i :: q, r, t, by rw [h1]; rfl, h2, h3, fun _ => h4 ?_⟩
      rw [List.any_eq_true] at h
      exact h
    · rw [if_neg h]
      have h' : ∀ x ∈ l, snap x = false := by
        intro x hx
        cases e : snap x with
        | false => rfl
        | true => exact absurd (List.any_eq_true.2 ⟨x, hx, e⟩) h
      refine ⟨[], i, l, rfl, rfl, h', ?_⟩
      rintro ⟨x, hx, e⟩
      rcases List.mem_cons.1 hx with hx | hx
      · rw [← hx]; exact e
      · rw [h' x hx] at e; cases e

theorem older_append {snap : Nat → Bool} {l q t : List Nat} (h : l = q ++ t) (e : recent snap l = t) : older snap l = q := by
  unfold older
  rw [e, h]
  simp

theorem recent_snoc_snap {snap : Nat → Bool} {l : List Nat} {i : Nat} (h : snap i = true) : recent snap (l ++ [i]) = [i] := by
  induction l with
  | nil => rfl
  | cons a l ih =>
    rw [List.cons_append]
    unfold recent
    rw [if_pos (by simp [h]), ih]

theorem recent_snoc {snap : Nat → Bool} {l : List Nat} {i : Nat} (h : snap i = false) (hl : l ≠ []) :
    recent snap (l ++ [i]) = recent snap l ++ [i] := by
  induction l with
  | nil => exact absurd rfl hl
  | cons a l ih =>
    rw [List.cons_append]
    unfold recent
    by_cases hs : l.any snap = true
    · rw [if_pos (by simp [hs]), if_pos hs, ih (by intro e; rw [e] at hs; cases hs)]
    · rw [if_neg (by simp at hs ⊢; exact ⟨hs, h⟩), if_neg hs]
      rfl

theorem Rep.restoreIds {cf : List Cfg} {c : CP} {s : Spec} (r : Rep cf c s) : ∀ (i : Nat) (k : Chk), s.chks i = some k →
    ∀ f, i < f → restoreIds c.chk f i = some (recent s.isSnap k.path).reverse := by
  intro i
  induction i using Nat.strongRecOn with
  | ind i ih =>
    intro k hk f hf
    obtain ⟨f, rfl⟩ : ∃ x, f = x + 1 := ⟨f - 1, by omega⟩
    obtain ⟨n, hn, o⟩ := r.get hk
    obtain ⟨⟨q, hq⟩, _⟩ := r.path i k hk
    have hsn : s.isSnap i = n.snap := by
      unfold Spec.isSnap; rw [hk]; exact o.snap.symm
    unfold Cherry.restoreIds
    rw [hn]
    dsimp only
    cases hs : n.snap with
    | true =>
      rw [hq, recent_snoc_snap (hsn.trans hs)]
      simp
    | false =>
      simp only [Bool.false_eq_true, if_false]
      rcases Option.eq_none_or_eq_some n.prev with hp | ⟨p, hp⟩
      · have := (r.tree.root i n hn hp).2
        rw [hs] at this; cases this
      · obtain ⟨hlt, _⟩ := r.tree.prevOk i n p hn hp
        obtain ⟨kp, hkp, e⟩ := o.later p hp
        obtain ⟨⟨q', hq'⟩, _⟩ := r.path p kp hkp
        rw [hp, e, recent_snoc (hsn.trans hs) (by rw [hq']; simp)]
        dsimp only
        rw [ih p hlt kp hkp f (by omega)]
        simp

/-! ### splitting the branch -/

theorem walk_same (chk : Map) : ∀ (l : List Nat) (x : Nat) (h : Option Nat), (∀ y ∈ l, isSnap chk y = false) →
    walk chk (x :: l) (x :: l) h = some ([], x :: l, if isSnap chk x then some x else h)
  | [], x, h, _ => by unfold walk; simp
  | y :: l, x, h, hl => by
    unfold walk
    rw [if_neg (by simp)]
    simp only
    rw [walk_same chk l y _ (fun z hz => hl z (List.mem_cons_of_mem _ hz)), hl y (List.mem_cons_self ..)]
    simp

theorem walk_split (chk : Map) {l : List Nat} {x : Nat} {h : Option Nat} (hl : ∀ y ∈ l, isSnap chk y = false) :
    ∀ (q : List Nat), x ∉ q → walk chk (q ++ x :: l) (x :: l) h = some (q, x :: l, if isSnap chk x then some x else h)
  | [], _ => walk_same chk l x h hl
  | a :: q, hq => by
    rw [List.mem_cons, not_or] at hq
    rw [List.cons_append]
    unfold walk
    rw [if_pos (fun e => hq.1 e.symm), walk_split chk hl q hq.2]
    rfl

/-! ### counting -/

theorem countP_split {α : Type _} (p q : α → Bool) : ∀ (l : List α),
    l.countP p = (l.filter q).countP p + (l.filter fun x => !q x).countP p
  | [] => rfl
  | a :: l => by
    rw [List.countP_cons, countP_split p q l]
    cases hq : q a <;> simp [hq, List.countP_cons] <;> omega

theorem length_split {α : Type _} (q : α → Bool) : ∀ (l : List α),
    l.length = (l.filter q).length + (l.filter fun x => !q x).length
  | [] => rfl
  | a :: l => by
    rw [List.length_cons, length_split q l]
    cases hq : q a <;> simp [hq] <;> omega

theorem countP_sub (p : Nat → Bool) : ∀ (l m : List Nat), l.Nodup → (∀ x ∈ l, x ∈ m) → l.countP p ≤ m.countP p
  | [], _, _, _ => by simp
  | x :: l, m, hn, hs => by
    rw [List.nodup_cons] at hn
    have hx := hs x (List.mem_cons_self ..)
    have hp := List.perm_cons_erase hx
    rw [hp.countP_eq, List.countP_cons, List.countP_cons]
    have := countP_sub p l (m.erase x) hn.2 (fun y hy => by
      have hyx : y ≠ x := fun e => hn.1 (e ▸ hy)
      exact (List.mem_erase_of_ne hyx).2 (hs y (List.mem_cons_of_mem _ hy)))
    omega

theorem length_sub (l m : List Nat) (h : l.Nodup) (hs : ∀ x ∈ l, x ∈ m) : l.length ≤ m.length := by
  have := countP_sub (fun _ => true) l m h hs
  simpa using this

theorem Rep.mem_ids {cf : List Cfg} {c : CP} {s : Spec} (r : Rep cf c s) {i : Nat} {k : Chk} (h : s.chks i = some k) : i ∈ s.ids := by
  obtain ⟨n, hn, _⟩ := r.get h
  unfold Spec.ids
  rw [List.mem_filter, List.mem_range, ← r.next, h]
  exact ⟨r.tree.lt i n hn, rfl⟩

end Sparta.Cherry
