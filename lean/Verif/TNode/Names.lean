import Verif.TNode.Shape
/-!
The map from names to children.
-/
namespace Sparta.TNode
open Sparta.Strings (Str)

/-! ### the order of the keys -/

theorem strLe_refl (a : Str) : strLe a a = true := by
  induction a with
  | nil => rfl
  | cons x a ih => rw [strLe, if_neg (Nat.lt_irrefl _), if_neg (Nat.lt_irrefl _)]; exact ih

theorem strLe_total (a b : Str) : strLe a b = true ∨ strLe b a = true := by
  induction a generalizing b with
  | nil => left; cases b <;> rfl
  | cons x a ih =>
    cases b with
    | nil => right; rfl
    | cons y b =>
      simp only [strLe]
      rcases Nat.lt_trichotomy x.toNat y.toNat with h | h | h
      · left; rw [if_pos h]
      · rw [h]; simp only [Nat.lt_irrefl, if_false]; exact ih b
      · right; rw [if_pos h]

theorem strLe_trans {a b c : Str} (h : strLe a b = true) (h' : strLe b c = true) : strLe a c = true := by
  induction a generalizing b c with
  | nil => cases c <;> rfl
  | cons x a ih =>
    cases b with
    | nil => cases h
    | cons y b =>
      cases c with
      | nil => cases h'
      | cons z c =>
        simp only [strLe] at h h' ⊢
        by_cases h1 : x.toNat < y.toNat
        · by_cases h2 : y.toNat < z.toNat
          · rw [if_pos (by omega)]
          · rw [if_neg h2] at h'
            by_cases h3 : z.toNat < y.toNat
            · rw [if_pos h3] at h'; cases h'
            · rw [if_pos (by omega)]
        · rw [if_neg h1] at h
          by_cases h2 : y.toNat < x.toNat
          · rw [if_pos h2] at h; cases h
          · rw [if_neg h2] at h
            by_cases h3 : y.toNat < z.toNat
            · rw [if_pos (by omega)]
            · rw [if_neg h3] at h'
              by_cases h4 : z.toNat < y.toNat
              · rw [if_pos h4] at h'; cases h'
              · rw [if_neg h4] at h'
                rw [if_neg (by omega), if_neg (by omega)]
                exact ih h h'

def SortedN (l : List (Str × Nat)) : Prop := l.Pairwise (fun a b => strLe a.1 b.1 = true)

theorem mem_insertName {k : Str} {c : Nat} {l : List (Str × Nat)} {e : Str × Nat} :
    e ∈ insertName k c l ↔ e = (k, c) ∨ e ∈ l := by
  induction l with
  | nil => simp [insertName]
  | cons x l ih =>
    rw [insertName]
    split
    · rw [List.mem_cons, ih, List.mem_cons]
      constructor
      · rintro (h | h | h)
        · exact .inr (.inl h)
        · exact .inl h
        · exact .inr (.inr h)
      · rintro (h | h | h)
        · exact .inr (.inl h)
        · exact .inl h
        · exact .inr (.inr h)
    · rw [List.mem_cons]

theorem sorted_insertName {k : Str} {c : Nat} {l : List (Str × Nat)} (h : SortedN l) : SortedN (insertName k c l) := by
  induction l with
  | nil => exact List.pairwise_singleton _ _
  | cons x l ih =>
    have hc := List.pairwise_cons.1 h
    rw [insertName]
    by_cases h1 : strLe x.1 k = true
    · rw [if_pos h1]
      refine List.pairwise_cons.2 ⟨?_, ih hc.2⟩
      intro e he
      rcases mem_insertName.1 he with rfl | he
      · exact h1
      · exact hc.1 e he
    · rw [if_neg h1]
      have h2 : strLe k x.1 = true := (strLe_total k x.1).resolve_right h1
      refine List.pairwise_cons.2 ⟨?_, h⟩
      intro e he
      rcases List.mem_cons.1 he with rfl | he
      · exact h2
      · exact strLe_trans h2 (hc.1 e he)

theorem sorted_insertNames {c : Nat} {ks : List Str} {l : List (Str × Nat)} (h : SortedN l) : SortedN (insertNames c ks l) := by
  induction ks generalizing l with
  | nil => exact h
  | cons k ks ih => exact ih (sorted_insertName h)

theorem mem_insertNames {c : Nat} {ks : List Str} {l : List (Str × Nat)} {e : Str × Nat} :
    e ∈ insertNames c ks l ↔ (e.2 = c ∧ e.1 ∈ ks) ∨ e ∈ l := by
  induction ks generalizing l with
  | nil => simp [insertNames]
  | cons k ks ih =>
    rw [insertNames, ih, mem_insertName, List.mem_cons]
    constructor
    · rintro (⟨h1, h2⟩ | rfl | h)
      · exact .inl ⟨h1, .inr h2⟩
      · exact .inl ⟨rfl, .inl rfl⟩
      · exact .inr h
    · rintro (⟨h1, h2 | h2⟩ | h)
      · right; left; rw [← h1, ← h2]
      · exact .inl ⟨h1, h2⟩
      · exact .inr (.inr h)

theorem lookup_mem {k : Str} {l : List (Str × Nat)} {c : Nat} (h : lookupName k l = some c) : (k, c) ∈ l := by
  induction l with
  | nil => cases h
  | cons e l ih =>
    rw [lookupName] at h
    by_cases h1 : e.1 = k
    · rw [if_pos h1] at h; cases h
      rw [← h1]; exact List.mem_cons_self
    · rw [if_neg h1] at h; exact List.mem_cons_of_mem _ (ih h)

theorem lookup_none {k : Str} {l : List (Str × Nat)} : lookupName k l = none ↔ ∀ e ∈ l, e.1 ≠ k := by
  induction l with
  | nil => simp [lookupName]
  | cons e l ih =>
    rw [lookupName]
    by_cases h1 : e.1 = k
    · rw [if_pos h1]; simp [h1]
    · rw [if_neg h1, ih]; simp [h1]

theorem lookup_insert_ne {k k' : Str} {c : Nat} {l : List (Str × Nat)} (h : k ≠ k') :
    lookupName k (insertName k' c l) = lookupName k l := by
  induction l with
  | nil => simp [insertName, lookupName, Ne.symm h]
  | cons e l ih =>
    rw [insertName]
    split
    · rw [lookupName, lookupName, ih]
    · rw [lookupName, if_neg (Ne.symm h)]

theorem lookup_insert_same {k : Str} {c : Nat} {l : List (Str × Nat)} (hs : SortedN l) :
    lookupName k (insertName k c l) = some ((lookupName k l).getD c) := by
  induction l with
  | nil => simp [insertName, lookupName]
  | cons e l ih =>
    have hc := List.pairwise_cons.1 hs
    rw [insertName]
    by_cases h1 : strLe e.1 k = true
    · rw [if_pos h1, lookupName, lookupName]
      by_cases h2 : e.1 = k
      · rw [if_pos h2, if_pos h2]; rfl
      · rw [if_neg h2, if_neg h2]; exact ih hc.2
    · rw [if_neg h1, lookupName, if_pos rfl]
      have hne : lookupName k (e :: l) = none := by
        rw [lookup_none]
        intro x hx hk
        rcases List.mem_cons.1 hx with rfl | hx
        · rw [hk, strLe_refl] at h1; exact h1 rfl
        · have := hc.1 x hx
          rw [hk] at this; exact h1 this
      rw [hne]; rfl

theorem lookup_insertNames {k : Str} {c : Nat} {ks : List Str} {l : List (Str × Nat)} (hs : SortedN l) :
    lookupName k (insertNames c ks l) =
      match lookupName k l with
      | some x => some x
      | none => if k ∈ ks then some c else none := by
  induction ks generalizing l with
  | nil => rw [insertNames]; cases lookupName k l <;> simp
  | cons a ks ih =>
    rw [insertNames, ih (sorted_insertName hs)]
    by_cases h : k = a
    · subst h
      rw [lookup_insert_same hs]
      cases lookupName k l with
      | none => simp
      | some x => rfl
    · rw [lookup_insert_ne h]
      cases lookupName k l with
      | none => simp [h]
      | some x => rfl

theorem lookup_filter {k : Str} {l : List (Str × Nat)} {f : Str → Bool} (h : f k = true) :
    lookupName k (l.filter (fun e => f e.1)) = lookupName k l := by
  induction l with
  | nil => rfl
  | cons e l ih =>
    rw [List.filter_cons]
    by_cases h1 : f e.1 = true
    · rw [if_pos h1, lookupName, lookupName, ih]
    · rw [if_neg h1, lookupName, if_neg (by rintro rfl; exact h1 h), ih]

/-! ### what the checks say -/

theorem checkNames_ok {s : St} {l : List (Str × Nat)} {ks : List Str} :
    checkNames s l ks = .ok () ↔ ∀ k ∈ ks, lookupName k l = none := by
  induction ks with
  | nil => simp [checkNames]
  | cons k ks ih =>
    rw [checkNames]
    cases hk : lookupName k l with
    | none =>
      dsimp only
      rw [ih]
      constructor
      · intro h x hx
        rcases List.mem_cons.1 hx with rfl | hx
        · exact hk
        · exact h x hx
      · intro h x hx; exact h x (List.mem_cons_of_mem _ hx)
    | some t =>
      dsimp only
      constructor
      · intro h; split at h <;> cases h
      · intro h
        have := h k List.mem_cons_self
        rw [hk] at this; cases this

theorem mem_idents {nd : Node} {k : Str} : k ∈ idents nd ↔ (k = nd.name ∧ k ≠ []) ∨ k ∈ nd.aliases := by
  unfold idents
  by_cases h : nd.name = []
  · rw [if_pos h]
    constructor
    · intro h1; exact .inr h1
    · rintro (⟨h1, h2⟩ | h1)
      · rw [h] at h1; exact absurd h1 h2
      · exact h1
  · rw [if_neg h]
    simp only [List.cons_append, List.nil_append, List.mem_cons]
    constructor
    · rintro (h1 | h1)
      · exact .inl ⟨h1, by rw [h1]; exact h⟩
      · exact .inr h1
    · rintro (⟨h1, -⟩ | h1)
      · exact .inl h1
      · exact .inr h1

theorem mem_keys {nd : Node} {k : Str} : k ∈ keys nd ↔ k ∈ idents nd ∨ groupKey nd = some k := by
  unfold keys
  rw [List.mem_append, Option.mem_toList]

/-! ### the invariant -/

structure NOK (s : St) : Prop where
  sorted : ∀ p pd, s.node p = some pd → SortedN pd.names
  sound : ∀ p pd k c, s.node p = some pd → (k, c) ∈ pd.names → ∃ cd, s.node c = some cd ∧ cd.parent = some p ∧ k ∈ keys cd
  complete : ∀ c cd p pd k, s.node c = some cd → cd.parent = some p → s.node p = some pd → k ∈ idents cd →
    lookupName k pd.names = some c

theorem nok_init : NOK init := by
  constructor <;> intros <;> simp_all [init]

theorem nok_dead {s : St} (h : NOK s) : NOK { s with dead := true } := ⟨h.sorted, h.sound, h.complete⟩

theorem WF.parent_alive {s : St} (h : WF s) {n p : Nat} {nd : Node} (hn : s.node n = some nd) (hp : nd.parent = some p) :
    ∃ pd, s.node p = some pd ∧ n ∈ pd.children := by
  obtain ⟨w, hw, hm⟩ := h.par n _ p (shape_some hn) hp
  obtain ⟨pd, hpd, rfl⟩ := shape_inv hw
  exact ⟨pd, hpd, hm⟩

theorem WF.child_alive {s : St} (h : WF s) {p c : Nat} {pd : Node} (hp : s.node p = some pd) (hc : c ∈ pd.children) :
    ∃ cd, s.node c = some cd ∧ cd.parent = some p := by
  obtain ⟨w, hw, hm⟩ := h.chi p _ c (shape_some hp) hc
  obtain ⟨cd, hcd, rfl⟩ := shape_inv hw
  exact ⟨cd, hcd, hm⟩

theorem WF.fresh {s : St} (h : WF s) : s.node s.next = none := by
  cases he : s.node s.next with
  | none => rfl
  | some nd => exact absurd (h.lt _ _ (shape_some he)) (Nat.lt_irrefl _)

theorem alloc_next {s : St} {nd : Node} : (alloc s nd).node s.next = some nd := by simp [alloc]

theorem alloc_other {s : St} {nd : Node} {x : Nat} (h : x ≠ s.next) : (alloc s nd).node x = s.node x := by simp [alloc, h]

theorem nok_alloc {s : St} (hw : WF s) (h : NOK s) {nd : Node} (hp : nd.parent = none) (hn : nd.names = []) : NOK (alloc s nd) := by
  constructor
  · intro p pd hpd
    by_cases hx : p = s.next
    · rw [hx, alloc_next] at hpd; cases hpd; rw [hn]; exact List.Pairwise.nil
    · rw [alloc_other hx] at hpd; exact h.sorted p pd hpd
  · intro p pd k c hpd hk
    by_cases hx : p = s.next
    · rw [hx, alloc_next] at hpd; cases hpd; rw [hn] at hk; cases hk
    · rw [alloc_other hx] at hpd
      obtain ⟨cd, hc, h1, h2⟩ := h.sound p pd k c hpd hk
      refine ⟨cd, ?_, h1, h2⟩
      rw [alloc_other (by rintro rfl; rw [hw.fresh] at hc; cases hc)]; exact hc
  · intro c cd p pd k hc hcp hpd hk
    by_cases hx : c = s.next
    · rw [hx, alloc_next] at hc; cases hc; rw [hp] at hcp; cases hcp
    · rw [alloc_other hx] at hc
      obtain ⟨pd', hpd', -⟩ := hw.parent_alive hc hcp
      have hpn : p ≠ s.next := by rintro rfl; rw [hw.fresh] at hpd'; cases hpd'
      rw [alloc_other hpn] at hpd
      exact h.complete c cd p pd k hc hcp hpd hk

theorem attach_p {s : St} {p c : Nat} {pd cd : Node} : (attach s p c pd cd).node p =
    some { pd with names := insertNames c (keys cd) pd.names, children := pd.children ++ [c] } := by
  simp [attach]

theorem attach_c {s : St} {p c : Nat} {pd cd : Node} (h : p ≠ c) : (attach s p c pd cd).node c =
    some { cd with parent := some p, priv := cd.priv + pd.priv } := by
  simp [attach, Ne.symm h]

theorem attach_other {s : St} {p c x : Nat} {pd cd xd : Node} (h1 : x ≠ p) (h2 : x ≠ c) (hx : (attach s p c pd cd).node x = some xd) :
    ∃ yd, s.node x = some yd ∧ xd = if under s c x then { yd with priv := yd.priv + pd.priv } else yd := by
  simp only [attach, if_neg h1, if_neg h2] at hx
  split at hx
  · cases hx
  · rename_i yd hy; cases hx; exact ⟨yd, hy, rfl⟩

theorem attach_other' {s : St} {p c x : Nat} {pd cd yd : Node} (h1 : x ≠ p) (h2 : x ≠ c) (hx : s.node x = some yd) :
    (attach s p c pd cd).node x = some (if under s c x then { yd with priv := yd.priv + pd.priv } else yd) := by
  simp only [attach, if_neg h1, if_neg h2, hx]

/-- what does not change for other nodes: all but the level -/
structure SameN (a b : Node) : Prop where
  name : a.name = b.name
  aliases : a.aliases = b.aliases
  group : a.group = b.group
  gidx : a.gidx = b.gidx
  indexable : a.indexable = b.indexable
  root : a.root = b.root
  ploc : a.ploc = b.ploc

theorem SameN.idents {a b : Node} (h : SameN a b) : idents a = idents b := by
  unfold TNode.idents; rw [h.name, h.aliases]

theorem SameN.groupKey {a b : Node} (h : SameN a b) : groupKey a = groupKey b := by
  unfold TNode.groupKey; rw [h.group, h.gidx]

theorem SameN.keys {a b : Node} (h : SameN a b) : keys a = keys b := by
  unfold TNode.keys; rw [h.idents, h.groupKey]

theorem SameN.refl (a : Node) : SameN a a := ⟨rfl, rfl, rfl, rfl, rfl, rfl, rfl⟩

/-- going back over `attach` -/
theorem attach_back {s : St} {p c x : Nat} {pd cd xd : Node} (hp : s.node p = some pd) (hc : s.node c = some cd) (hpc : p ≠ c)
    (hx : (attach s p c pd cd).node x = some xd) :
    ∃ yd, s.node x = some yd ∧ SameN xd yd ∧ (x ≠ c → xd.parent = yd.parent) ∧ (x = c → xd.parent = some p) ∧
      (x ≠ p → xd.names = yd.names) := by
  by_cases h1 : x = p
  · rw [h1, attach_p] at hx; cases hx
    exact ⟨pd, h1 ▸ hp, ⟨rfl, rfl, rfl, rfl, rfl, rfl, rfl⟩, fun _ => rfl, fun h => absurd (h1.symm.trans h) hpc, fun h => absurd h1 h⟩
  · by_cases h2 : x = c
    · rw [h2, attach_c hpc] at hx; cases hx
      exact ⟨cd, h2 ▸ hc, ⟨rfl, rfl, rfl, rfl, rfl, rfl, rfl⟩, fun h => absurd h2 h, fun _ => rfl, fun _ => rfl⟩
    · obtain ⟨yd, hy, e⟩ := attach_other h1 h2 hx
      refine ⟨yd, hy, ?_⟩
      rw [e]
      split
      · exact ⟨⟨rfl, rfl, rfl, rfl, rfl, rfl, rfl⟩, fun _ => rfl, fun h => absurd h h2, fun _ => rfl⟩
      · exact ⟨.refl _, fun _ => rfl, fun h => absurd h h2, fun _ => rfl⟩

theorem attach_fwd {s : St} {p c x : Nat} {pd cd yd : Node} (hp : s.node p = some pd) (hc : s.node c = some cd) (hpc : p ≠ c)
    (hx : s.node x = some yd) : ∃ xd, (attach s p c pd cd).node x = some xd := by
  by_cases h1 : x = p
  · rw [h1]; exact ⟨_, attach_p⟩
  · by_cases h2 : x = c
    · rw [h2]; exact ⟨_, attach_c hpc⟩
    · exact ⟨_, attach_other' h1 h2 hx⟩

theorem nok_attach {s : St} (hw : WF s) (h : NOK s) {p c : Nat} {pd cd : Node} (hp : s.node p = some pd) (hc : s.node c = some cd)
    (hpc : p ≠ c) (hcp : cd.parent = none) (hnm : ∀ k ∈ cd.name :: cd.aliases, lookupName k pd.names = none) :
    NOK (attach s p c pd cd) := by
  constructor
  · intro q qd hq
    by_cases h1 : q = p
    · rw [h1, attach_p] at hq; cases hq
      exact sorted_insertNames (h.sorted p pd hp)
    · obtain ⟨yd, hy, -, -, -, hn⟩ := attach_back hp hc hpc hq
      rw [hn h1]; exact h.sorted q yd hy
  · intro q qd k x hq hk
    have hold : ∀ q yd, s.node q = some yd → (k, x) ∈ yd.names →
        ∃ xd, (attach s p c pd cd).node x = some xd ∧ xd.parent = some q ∧ k ∈ keys xd := by
      intro q yd hy hk
      obtain ⟨zd, hz, hzp, hzk⟩ := h.sound q yd k x hy hk
      obtain ⟨xd, hx⟩ := attach_fwd hp hc hpc hz
      obtain ⟨zd', hz', hs, hpar, -, -⟩ := attach_back hp hc hpc hx
      rw [hz] at hz'; cases hz'
      refine ⟨xd, hx, ?_, by rw [hs.keys]; exact hzk⟩
      rw [hpar ?_]
      · exact hzp
      · rintro rfl; rw [hc] at hz; cases hz; rw [hcp] at hzp; cases hzp
    by_cases h1 : q = p
    · rw [h1, attach_p] at hq; cases hq
      rcases mem_insertNames.1 hk with ⟨hx, hk⟩ | hk
      · have hx : x = c := hx
        rw [hx, h1]
        exact ⟨_, attach_c hpc, rfl, hk⟩
      · rw [h1]; exact hold p pd hp hk
    · obtain ⟨yd, hy, -, -, -, hn⟩ := attach_back hp hc hpc hq
      rw [hn h1] at hk
      exact hold q yd hy hk
  · intro x xd q qd k hx hxq hq hk
    obtain ⟨yd, hy, hs, hpar, hparc, -⟩ := attach_back hp hc hpc hx
    obtain ⟨zd, hz, -, -, -, hn⟩ := attach_back hp hc hpc hq
    rw [hs.idents] at hk
    by_cases h2 : x = c
    · have hqp : q = p := by
        have := hparc h2
        rw [hxq] at this; cases this; rfl
      rw [hqp, attach_p] at hq; cases hq
      rw [h2, hc] at hy; cases hy
      dsimp only
      have hm := mem_idents.1 hk
      have hl : lookupName k pd.names = none := by
        refine hnm k ?_
        rcases hm with hm | hm
        · rw [hm.1]; exact List.mem_cons_self
        · exact List.mem_cons_of_mem _ hm
      rw [lookup_insertNames (h.sorted p pd hp), hl]
      dsimp only
      rw [if_pos (mem_keys.2 (.inl hk)), h2]
    · rw [hpar h2] at hxq
      have hl := h.complete x yd q zd k hy hxq hz hk
      by_cases h1 : q = p
      · rw [h1, attach_p] at hq; cases hq
        rw [h1, hp] at hz; cases hz
        dsimp only
        rw [lookup_insertNames (h.sorted p pd hp), hl]
      · rw [hn h1]; exact hl

theorem nok_addChild {s s' : St} (hw : WF s) (h : NOK s) {p c : Nat} (ha : addChild s p c = .ok s') : NOK s' := by
  obtain ⟨pd, cd, hp, hc, hpc, hanc, -, hnm, -, hcp, rfl⟩ := addChild_ok ha
  refine nok_attach hw h hp hc hpc hcp ?_
  intro k hk
  exact checkNames_ok.1 hnm k (List.mem_append_left _ hk)

theorem nok_addAlias {s s' : St} {n : Nat} {a : Str} (h : NOK s) (hs : addAlias s n a = .ok s') : NOK s' := by
  obtain ⟨nd, hn, hnp, -, -, -, rfl⟩ := addAlias_ok hs
  have hback : ∀ x xd, (if x = n then some { nd with aliases := nd.aliases ++ [a] } else s.node x) = some xd →
      ∃ yd, s.node x = some yd ∧ xd.parent = yd.parent ∧ xd.names = yd.names ∧ (x ≠ n → xd = yd) := by
    intro x xd hx
    by_cases h1 : x = n
    · rw [if_pos h1] at hx; cases hx
      exact ⟨nd, h1 ▸ hn, rfl, rfl, fun h => absurd h1 h⟩
    · rw [if_neg h1] at hx; exact ⟨xd, hx, rfl, rfl, fun _ => rfl⟩
  constructor
  · intro p pd hp
    obtain ⟨yd, hy, -, e, -⟩ := hback p pd hp
    rw [e]; exact h.sorted p yd hy
  · intro p pd k c hp hk
    obtain ⟨yd, hy, -, e, -⟩ := hback p pd hp
    rw [e] at hk
    obtain ⟨cd, hc, hcp, hck⟩ := h.sound p yd k c hy hk
    refine ⟨cd, ?_, hcp, hck⟩
    show (if c = n then _ else _) = _
    rw [if_neg]
    · exact hc
    · rintro rfl; rw [hn] at hc; cases hc; rw [hnp] at hcp; cases hcp
  · intro c cd p pd k hc hcp hp hk
    obtain ⟨yd, hy, e1, -, e2⟩ := hback c cd hc
    obtain ⟨zd, hz, -, e3, -⟩ := hback p pd hp
    have hcn : c ≠ n := by
      rintro rfl
      rw [hn] at hy; cases hy; rw [e1, hnp] at hcp; cases hcp
    rw [e2 hcn] at hcp hk
    rw [e3]
    exact h.complete c yd p zd k hy hcp hz hk

theorem priv_back {s : St} {n x : Nat} {xd : Node} (hx : (privatized s n).node x = some xd) :
    ∃ yd, s.node x = some yd ∧ xd = (if under s n x then { yd with priv := yd.priv + 1 } else yd) := by
  simp only [privatized] at hx
  split at hx
  · cases hx
  · rename_i yd hy; cases hx; exact ⟨yd, hy, rfl⟩

theorem priv_back' {s : St} {n x : Nat} {xd : Node} (hx : (privatized s n).node x = some xd) :
    ∃ yd, s.node x = some yd ∧ SameN xd yd ∧ xd.parent = yd.parent ∧ xd.names = yd.names ∧ xd.children = yd.children := by
  obtain ⟨yd, hy, e⟩ := priv_back hx
  refine ⟨yd, hy, ?_⟩
  rw [e]; split
  · exact ⟨⟨rfl, rfl, rfl, rfl, rfl, rfl, rfl⟩, rfl, rfl, rfl⟩
  · exact ⟨.refl _, rfl, rfl, rfl⟩

theorem priv_fwd {s : St} {n x : Nat} {yd : Node} (hx : s.node x = some yd) :
    (privatized s n).node x = some (if under s n x then { yd with priv := yd.priv + 1 } else yd) := by
  simp only [privatized, hx]

theorem nok_makePrivate {s s' : St} {n : Nat} (h : NOK s) (hs : makePrivate s n = .ok s') : NOK s' := by
  obtain ⟨-, rfl⟩ := makePrivate_ok hs
  constructor
  · intro p pd hp
    obtain ⟨yd, hy, -, -, e, -⟩ := priv_back' hp
    rw [e]; exact h.sorted p yd hy
  · intro p pd k c hp hk
    obtain ⟨yd, hy, -, -, e, -⟩ := priv_back' hp
    rw [e] at hk
    obtain ⟨cd, hc, hcp, hck⟩ := h.sound p yd k c hy hk
    obtain ⟨cd', hc', hsm, e1, -⟩ := priv_back' (priv_fwd (n := n) hc)
    rw [hc] at hc'; cases hc'
    exact ⟨_, priv_fwd hc, by rw [e1]; exact hcp, by rw [hsm.keys]; exact hck⟩
  · intro c cd p pd k hc hcp hp hk
    obtain ⟨yd, hy, hsm, e1, -⟩ := priv_back' hc
    obtain ⟨zd, hz, -, -, e3, -⟩ := priv_back' hp
    rw [e1] at hcp
    rw [hsm.idents] at hk
    rw [e3]
    exact h.complete c yd p zd k hy hcp hz hk

theorem detach_back {s : St} {n x : Nat} {nd xd : Node} {l : Option Str} (hx : (detach s n nd l).node x = some xd) :
    x ≠ n ∧ ∃ yd, s.node x = some yd ∧ xd = (if nd.parent = some x then dropChild n nd yd
            else if nd.children.contains x then { yd with parent := none, ploc := l }
            else yd) := by
  simp only [detach] at hx
  by_cases h1 : x = n
  · rw [if_pos h1] at hx; cases hx
  · rw [if_neg h1] at hx
    split at hx
    · cases hx
    · rename_i yd hy; cases hx; exact ⟨h1, yd, hy, rfl⟩

theorem detach_fwd {s : St} {n x : Nat} {nd yd : Node} {l : Option Str} (h1 : x ≠ n) (hx : s.node x = some yd) :
    (detach s n nd l).node x = some (if nd.parent = some x then dropChild n nd yd
            else if nd.children.contains x then { yd with parent := none, ploc := l }
            else yd) := by
  simp only [detach, if_neg h1, hx]

/-- the parts of the nodes after a destructor -/
theorem detach_back' {s : St} {n x : Nat} {nd xd : Node} {l : Option Str} (hx : (detach s n nd l).node x = some xd) :
    x ≠ n ∧ ∃ yd, s.node x = some yd ∧ idents xd = idents yd ∧ keys xd = keys yd ∧ xd.name = yd.name ∧ xd.priv = yd.priv ∧
      (xd.parent = yd.parent ∨ xd.parent = none) ∧
      (nd.parent = some x → xd.names = yd.names.filter (fun e => !(idents nd).contains e.1)) ∧
      (nd.parent ≠ some x → xd.names = yd.names) := by
  obtain ⟨hxn, yd, hy, e⟩ := detach_back hx
  refine ⟨hxn, yd, hy, ?_⟩
  by_cases h1 : nd.parent = some x
  · rw [if_pos h1] at e; rw [e]
    exact ⟨rfl, rfl, rfl, rfl, .inl rfl, fun _ => rfl, fun h => absurd h1 h⟩
  · rw [if_neg h1] at e
    by_cases h2 : nd.children.contains x = true
    · rw [if_pos h2] at e; rw [e]; exact ⟨rfl, rfl, rfl, rfl, .inr rfl, fun h => absurd h h1, fun _ => rfl⟩
    · rw [if_neg h2] at e; rw [e]; exact ⟨rfl, rfl, rfl, rfl, .inl rfl, fun h => absurd h h1, fun _ => rfl⟩

theorem nok_detach {s : St} (hw : WF s) (h : NOK s) {n : Nat} {nd : Node} (hn : s.node n = some nd) (ht : TidyDestroy s n)
    (l : Option Str) : NOK (detach s n nd l) := by
  constructor
  · intro p pd hp
    obtain ⟨-, yd, hy, -, -, -, -, -, e1, e2⟩ := detach_back' hp
    by_cases h1 : nd.parent = some p
    · rw [e1 h1]; exact (h.sorted p yd hy).filter _
    · rw [e2 h1]; exact h.sorted p yd hy
  · intro p pd k c hp hk
    obtain ⟨hpn, yd, hy, -, -, -, -, -, e1, e2⟩ := detach_back' hp
    have hk' : (k, c) ∈ yd.names ∧ (nd.parent = some p → k ∉ idents nd) := by
      by_cases h1 : nd.parent = some p
      · rw [e1 h1, List.mem_filter] at hk
        refine ⟨hk.1, fun _ hm => ?_⟩
        have := hk.2
        rw [List.contains_iff_mem.2 hm] at this; cases this
      · rw [e2 h1] at hk; exact ⟨hk, fun h => absurd h h1⟩
    obtain ⟨cd, hc, hcp, hck⟩ := h.sound p yd k c hy hk'.1
    have hcn : c ≠ n := by
      rintro rfl
      rw [hn] at hc; cases hc
      rcases ht nd hn with h1 | h1
      · rw [h1] at hcp; cases hcp
      · rcases mem_keys.1 hck with h2 | h2
        · exact hk'.2 hcp h2
        · exact hk'.2 hcp (h1 k h2)
    have hf := detach_fwd (nd := nd) (l := l) hcn hc
    obtain ⟨-, cd', hc', -, ek, -⟩ := detach_back' hf
    rw [hc] at hc'; cases hc'
    refine ⟨_, hf, ?_, by rw [ek]; exact hck⟩
    have hnc : nd.children.contains c = false := by
      cases hcc : nd.children.contains c with
      | false => rfl
      | true =>
        obtain ⟨cd', hc', hcp'⟩ := hw.child_alive hn (List.contains_iff_mem.1 hcc)
        rw [hc] at hc'; cases hc'
        rw [hcp] at hcp'; cases hcp'; exact absurd rfl hpn
    rw [hnc]
    split
    · exact hcp
    · exact hcp
  · intro c cd p pd k hc hcp hp hk
    obtain ⟨hcn, yd, hy, ei, -, -, -, ep, -, -⟩ := detach_back' hc
    obtain ⟨hpn, zd, hz, -, -, -, -, -, e1, e2⟩ := detach_back' hp
    rw [ei] at hk
    have hcp' : yd.parent = some p := by
      rcases ep with ep | ep
      · rw [← ep]; exact hcp
      · rw [ep] at hcp; cases hcp
    have hl := h.complete c yd p zd k hy hcp' hz hk
    by_cases h1 : nd.parent = some p
    · rw [e1 h1]
      have : k ∉ idents nd := by
        intro hm
        have := h.complete n nd p zd k hn h1 hz hm
        rw [hl] at this; cases this; exact hcn rfl
      rw [lookup_filter (f := fun x => !(idents nd).contains x)]
      · exact hl
      · cases hcc : (idents nd).contains k with
        | false => rfl
        | true => exact absurd (List.contains_iff_mem.1 hcc) this
    · rw [e2 h1]; exact hl

theorem nok_step {s : St} {o : Op} (hw : WF s) (h : NOK s) (ht : ∀ n, o = .destroy n → TidyDestroy s n) :
    NOK (step s o).1 := by
  refine (step_keeps (P := fun s => WF s ∧ NOK s) ?_ ?_ ?_ ?_ ?_ ?_ ⟨hw, h⟩).2
  · exact fun s h => ⟨h.1, nok_dead h.2⟩
  · intro s parent nd s' h hp hc hn _ _ _ _ hs
    refine ⟨wf_construct h.1 hp hc hs, ?_⟩
    rcases (construct_ok hs).2.2 with ⟨-, rfl⟩ | ⟨p, -, -, ha⟩
    · exact nok_alloc h.1 h.2 hp hn
    · exact nok_addChild (wf_alloc h.1 hp hc) (nok_alloc h.1 h.2 hp hn) ha
  · exact fun s n a s' h hs => ⟨wf_addAlias h.1 hs, nok_addAlias h.2 hs⟩
  · exact fun s p c s' h hs => ⟨wf_addChild h.1 hs, nok_addChild h.1 h.2 hs⟩
  · exact fun s n s' h hs => ⟨wf_makePrivate h.1 hs, nok_makePrivate h.2 hs⟩
  · intro n s' ho h hs
    obtain ⟨nd, l, hn, rfl, -⟩ := destroy_ok hs
    exact ⟨wf_detach h.1 hn l, nok_detach h.1 h.2 hn (ht n ho) l⟩

theorem nok_run {s : St} (hw : WF s) (h : NOK s) {ops : List Op} (ht : Tidy s ops) : NOK (runOps step s ops).1 := by
  induction ops generalizing s with
  | nil => exact h
  | cons o os ih => exact ih (wf_step o hw) (nok_step hw h ht.1) ht.2

theorem nok_after {ops : List Op} (ht : Tidy init ops) : NOK (after ops) := nok_run wf_init nok_init ht

end Sparta.TNode
