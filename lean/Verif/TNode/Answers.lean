import Verif.TNode.Search2
/-!
The answers of the calls: up the tree, adding a child, names.
-/
namespace Sparta.TNode
open Sparta.Strings (Str)
open Sparta.PTree (joinDots names names_join)

/-! ### up the tree -/

theorem chain_last {s : St} {n d : Nat} (h : Lv (parentOf s) n d) :
    parentOf s ((chain s (d + 1) n).getLastD n) = none ∧ (chain s (d + 1) n).length = d + 1 ∧
      ((chain s (d + 1) n).getLastD n = n ∨ Above (parentOf s) ((chain s (d + 1) n).getLastD n) n) := by
  induction h with
  | @zero n h => rw [chain, h]; exact ⟨h, rfl, .inl rfl⟩
  | @succ n p d h hl ih =>
    have e : chain s (d + 1 + 1) n = n :: chain s (d + 1) p := by rw [chain, h]
    have e2 : (n :: chain s (d + 1) p).getLastD n = (chain s (d + 1) p).getLastD p := by
      rw [chain]
      simp [List.getLastD]
    rw [e, e2]
    refine ⟨ih.1, by rw [List.length_cons, ih.2.1], .inr ?_⟩
    rcases ih.2.2 with h1 | h1
    · rw [h1]; exact .parent h
    · exact .up h h1

theorem getRoot_spec {s : St} (hw : WF s) {n : Nat} (ha : Alive s n) :
    parentOf s (getRoot s n) = none ∧ (getRoot s n = n ∨ Above (parentOf s) (getRoot s n) n) := by
  obtain ⟨nd, hn⟩ := Option.isSome_iff_exists.1 ha
  obtain ⟨d, hd⟩ := hw.lv hn
  have := chain_last hd
  unfold getRoot
  rw [hw.ancestry hn hd]
  exact ⟨this.1, this.2.2⟩

theorem getLevel_spec {s : St} (hw : WF s) {n : Nat} (ha : Alive s n) : Lv (parentOf s) n (getLevel s n) := by
  obtain ⟨nd, hn⟩ := Option.isSome_iff_exists.1 ha
  obtain ⟨d, hd⟩ := hw.lv hn
  have := chain_last hd
  unfold getLevel
  rw [hw.ancestry hn hd, this.2.1]
  exact hd

/-- so many steps up from `n` is `a` -/
inductive Steps (P : Nat → Option Nat) : Nat → Nat → Nat → Prop
  | here (n : Nat) : Steps P n n 0
  | up {n p a k : Nat} : P n = some p → Steps P p a k → Steps P n a (k + 1)

theorem descLoop_spec {s : St} {a n d : Nat} (h : Lv (parentOf s) n d) {f : Nat} (hf : d < f) (depth : Option Nat) :
    descLoop s a f depth n = true ↔ ∃ k, Steps (parentOf s) n a k ∧ ∀ m, depth = some m → k ≤ m := by
  induction h generalizing f depth with
  | @zero n h =>
    obtain ⟨f, rfl⟩ : ∃ g, f = g + 1 := ⟨f - 1, by omega⟩
    rw [descLoop, h]
    by_cases h1 : n = a
    · rw [if_pos h1]
      exact ⟨fun _ => ⟨0, h1 ▸ .here n, fun m _ => Nat.zero_le _⟩, fun _ => rfl⟩
    · rw [if_neg h1]
      have hno : ¬ ∃ k, Steps (parentOf s) n a k ∧ ∀ m, depth = some m → k ≤ m := by
        rintro ⟨k, hk, -⟩
        cases hk with
        | here => exact h1 rfl
        | up h2 => rw [h] at h2; cases h2
      by_cases h2 : depth = some 0
      · rw [if_pos h2]; exact ⟨fun h => by simp at h, fun h => absurd h hno⟩
      · rw [if_neg h2]; exact ⟨fun h => by simp at h, fun h => absurd h hno⟩
  | @succ n p d h hl ih =>
    obtain ⟨f, rfl⟩ : ∃ g, f = g + 1 := ⟨f - 1, by omega⟩
    rw [descLoop, h]
    by_cases h1 : n = a
    · rw [if_pos h1]
      exact ⟨fun _ => ⟨0, h1 ▸ .here n, fun m _ => Nat.zero_le _⟩, fun _ => rfl⟩
    · rw [if_neg h1]
      have hk1 : (∃ k, Steps (parentOf s) n a k ∧ ∀ m, depth = some m → k ≤ m) ↔
          ∃ k, Steps (parentOf s) p a k ∧ ∀ m, depth = some m → k + 1 ≤ m := by
        constructor
        · rintro ⟨k, hk, hm⟩
          cases hk with
          | here => exact absurd rfl h1
          | up h2 h3 => rw [h] at h2; cases h2; exact ⟨_, h3, hm⟩
        · rintro ⟨k, hk, hm⟩; exact ⟨k + 1, .up h hk, hm⟩
      rw [hk1]
      by_cases h2 : depth = some 0
      · rw [if_pos h2]
        refine ⟨fun h => by simp at h, ?_⟩
        rintro ⟨k, -, hm⟩
        have := hm 0 h2
        omega
      · rw [if_neg h2]
        dsimp only
        rw [ih (by omega)]
        constructor
        · rintro ⟨k, hk, hm⟩
          refine ⟨k, hk, ?_⟩
          rintro m rfl
          have := hm (m - 1) rfl
          have : m ≠ 0 := by rintro rfl; exact h2 rfl
          omega
        · rintro ⟨k, hk, hm⟩
          refine ⟨k, hk, ?_⟩
          intro m hm'
          cases depth with
          | none => cases hm'
          | some m' =>
            have h3 := hm m' rfl
            have h4 : m' - 1 = m := Option.some.inj hm'
            omega

theorem isDescendantOf_spec {s : St} (hw : WF s) {n a : Nat} (ha : Alive s n) (depth : Option Nat) :
    isDescendantOf s n a depth = true ↔ ∃ k, Steps (parentOf s) n a k ∧ ∀ m, depth = some m → k ≤ m := by
  obtain ⟨nd, hn⟩ := Option.isSome_iff_exists.1 ha
  obtain ⟨d, hd⟩ := hw.lv hn
  exact descLoop_spec hd (hw.lv_lt hn hd) depth

/-! ### adding a child -/

/-- both nodes ask for the same place in the same group -/
def SameSlot (s : St) (t c : Nat) : Prop :=
  ∃ td cd, s.node t = some td ∧ s.node c = some cd ∧ td.group = cd.group ∧ td.gidx = cd.gidx ∧ td.gidx ≠ idxNone ∧
    td.indexable = true ∧ cd.indexable = true

/-- made as a root -/
def isRoot (s : St) (n : Nat) : Prop := ∃ nd, s.node n = some nd ∧ nd.root = true

/-- there is room for `c` under `p` -/
structure Fits (s : St) (p c : Nat) : Prop where
  other : p ≠ c
  acyclic : ¬ Above (parentOf s) c p
  free : ∀ k ∈ identsOf s c, getChild s true p k = .ok none
  slot : ∀ t, parentOf s t = some p → ¬ SameSlot s t c
  noroot : ¬ isRoot s c

theorem checkChildren_ok {s : St} {c : Nat} {cd : Node} (hc : s.node c = some cd) {ts : List Nat} (ha : ∀ t ∈ ts, (s.node t).isSome) :
    (checkChildren s c cd ts = .ok () ↔ c ∉ ts ∧ ∀ t ∈ ts, ¬ SameSlot s t c) ∧
      (checkChildren s c cd ts = .ok () ∨ checkChildren s c cd ts = .error .throw) := by
  induction ts with
  | nil => exact ⟨⟨fun _ => ⟨List.not_mem_nil, fun t h => by cases h⟩, fun _ => rfl⟩, .inl rfl⟩
  | cons t ts ih =>
    obtain ⟨ih1, ih2⟩ := ih (fun x hx => ha x (List.mem_cons_of_mem _ hx))
    obtain ⟨td, htd⟩ := Option.isSome_iff_exists.1 (ha t List.mem_cons_self)
    rw [checkChildren]
    by_cases h1 : t = c
    · rw [if_pos h1]
      refine ⟨⟨(fun h => nomatch h), fun h => absurd (h1 ▸ List.mem_cons_self) h.1⟩, .inr rfl⟩
    · rw [if_neg h1, htd]
      dsimp only
      by_cases h2 : td.group = cd.group ∧ td.gidx ≠ idxNone ∧ td.gidx = cd.gidx ∧ cd.indexable = true ∧ td.indexable = true
      · rw [if_pos h2]
        refine ⟨⟨(fun h => nomatch h), fun h => ?_⟩, .inr rfl⟩
        exact absurd ⟨td, cd, htd, hc, h2.1, h2.2.2.1, h2.2.1, h2.2.2.2.2, h2.2.2.2.1⟩ (h.2 t List.mem_cons_self)
      · rw [if_neg h2]
        refine ⟨?_, ih2⟩
        rw [ih1]
        constructor
        · rintro ⟨h3, h4⟩
          refine ⟨fun h => ?_, ?_⟩
          · rcases List.mem_cons.1 h with h | h
            · exact h1 h.symm
            · exact h3 h
          · intro x hx
            rcases List.mem_cons.1 hx with rfl | hx
            · rintro ⟨td', cd', e1, e2, e3, e4, e5, e6, e7⟩
              rw [htd] at e1; cases e1
              rw [hc] at e2; cases e2
              exact h2 ⟨e3, e5, e4, e7, e6⟩
            · exact h4 x hx
        · rintro ⟨h3, h4⟩
          exact ⟨fun h => h3 (List.mem_cons_of_mem _ h), fun x hx => h4 x (List.mem_cons_of_mem _ hx)⟩

theorem checkNames_err {s : St} {l : List (Str × Nat)} (hl : ∀ e ∈ l, (s.node e.2).isSome) {ks : List Str} :
    checkNames s l ks = .ok () ∨ checkNames s l ks = .error .throw := by
  induction ks with
  | nil => exact .inl rfl
  | cons k ks ih =>
    rw [checkNames]
    cases h : lookupName k l with
    | none => exact ih
    | some t =>
      dsimp only
      obtain ⟨td, htd⟩ := Option.isSome_iff_exists.1 (hl _ (lookup_mem h))
      rw [htd]; exact .inr rfl

theorem groupKey_ne {nd : Node} {k : Str} (h : groupKey nd = some k) : k ≠ [] := by
  unfold groupKey at h
  by_cases h1 : nd.group = []
  · rw [if_pos h1] at h; cases h
  · rw [if_neg h1] at h
    cases h
    intro h2
    exact h1 (List.append_eq_nil_iff.1 h2).1

theorem lookup_empty {s : St} (hn : NOK s) (hv : Valid s) {p : Nat} {pd : Node} (hp : s.node p = some pd) : lookupName [] pd.names = none := by
  cases h : lookupName [] pd.names with
  | none => rfl
  | some c =>
    exfalso
    obtain ⟨cd, hcd, -, hk⟩ := hn.sound p pd [] c hp (lookup_mem h)
    rcases mem_keys.1 hk with hk | hk
    · exact (hv.ident hcd hk).2 rfl
    · exact groupKey_ne hk rfl

theorem getChild_ident {s : St} {p : Nat} {pd : Node} (hp : s.node p = some pd) {k : Str} (hk : k ≠ []) (hd : '.' ∉ k) :
    getChild s true p k = .ok (lookupName k pd.names) := by
  have h : names k = [k] := names_join (L := [k]) (fun x hx => by rw [List.mem_singleton.1 hx]; exact ⟨hk, hd⟩)
  rw [getChild_all, h, walk, hp]
  dsimp only
  rw [if_neg hk]
  cases lookupName k pd.names <;> rfl

theorem addChild_exact {s : St} (hw : WF s) (hn : NOK s) (hv : Valid s) {p c : Nat} {pd cd : Node} (hp : s.node p = some pd)
    (hc : s.node c = some cd) :
    (addChild s p c = .ok (attach s p c pd cd) ∧ Fits s p c ∧ parentOf s c = none) ∨
    (addChild s p c = .error .critical ∧ Fits s p c ∧ ∃ q, q ≠ p ∧ parentOf s c = some q) ∨
    (addChild s p c = .error .throw ∧ (¬ Fits s p c ∨ parentOf s c = some p)) := by
  have hchild : ∀ t, parentOf s t = some p ↔ t ∈ pd.children := by
    intro t
    constructor
    · intro h
      obtain ⟨td, htd, htp⟩ := parentOf_alive h
      obtain ⟨pd', hpd', hm⟩ := hw.parent_alive htd htp
      rw [hp] at hpd'; cases hpd'; exact hm
    · intro h
      obtain ⟨td, htd, htp⟩ := hw.child_alive hp h
      rw [parentOf_some htd]; exact htp
  have hal : ∀ t ∈ pd.children, (s.node t).isSome := by
    intro t h
    obtain ⟨td, htd, htp⟩ := hw.child_alive hp h
    rw [htd]; rfl
  have hnal : ∀ e ∈ pd.names, (s.node e.2).isSome := by
    intro e he
    obtain ⟨td, htd, -⟩ := hn.sound p pd e.1 e.2 hp he
    rw [htd]; rfl
  unfold addChild
  rw [hp, hc]
  dsimp only
  by_cases h1 : p = c
  · rw [if_pos h1]; exact .inr (.inr ⟨rfl, .inl fun h => h.other h1⟩)
  rw [if_neg h1]
  by_cases h2 : (ancestry s p).contains c = true
  · rw [if_pos h2]
    refine .inr (.inr ⟨rfl, .inl fun h => ?_⟩)
    rcases (hw.mem_ancestry hp c).1 (List.contains_iff_mem.1 h2) with h3 | h3
    · exact h1 h3.symm
    · exact h.acyclic h3
  rw [if_neg h2]
  have hac : ¬ Above (parentOf s) c p := fun h => h2 (List.contains_iff_mem.2 ((hw.mem_ancestry hp c).2 (.inr h)))
  obtain ⟨k1, k2⟩ := checkChildren_ok hc hal
  cases hcc : checkChildren s c cd pd.children with
  | error e =>
    rw [hcc] at k1 k2
    have he : e = .throw := by
      rcases k2 with k2 | k2
      · cases k2
      · cases k2; rfl
    dsimp only
    rw [he]
    refine .inr (.inr ⟨rfl, ?_⟩)
    by_cases h3 : parentOf s c = some p
    · exact .inr h3
    · refine .inl fun h => ?_
      have := k1.2 ⟨fun hm => h3 ((hchild c).2 hm), fun t ht => h.slot t ((hchild t).2 ht)⟩
      cases this
  | ok u =>
    obtain ⟨hcn, hslot⟩ := k1.1 hcc
    dsimp only
    have hfree : checkNames s pd.names (cd.name :: cd.aliases ++ [cd.name]) = .ok () ↔ ∀ k ∈ identsOf s c, getChild s true p k = .ok none := by
      rw [checkNames_ok, identsOf_some hc]
      constructor
      · intro h k hk
        have hvk := hv.ident hc hk
        rw [getChild_ident hp hvk.2 (validName_dot hvk.1)]
        rw [h k ?_]
        rcases mem_idents.1 hk with hk | hk
        · rw [hk.1]; simp
        · simp [hk]
      · intro h k hk
        by_cases h0 : k = []
        · rw [h0]; exact lookup_empty hn hv hp
        · have hki : k ∈ idents cd := by
            refine mem_idents.2 ?_
            simp only [List.cons_append, List.mem_cons, List.mem_append, List.not_mem_nil, or_false] at hk
            rcases hk with hk | hk | hk
            · exact .inl ⟨hk, h0⟩
            · exact .inr hk
            · exact .inl ⟨hk, h0⟩
          have hvk := hv.ident hc hki
          have := h k hki
          rw [getChild_ident hp hvk.2 (validName_dot hvk.1)] at this
          injection this
    rcases checkNames_err hnal (ks := cd.name :: cd.aliases ++ [cd.name]) with h4 | h4
    · rw [h4]
      dsimp only
      by_cases h5 : cd.root = true
      · rw [if_pos h5]; exact .inr (.inr ⟨rfl, .inl fun h => h.noroot ⟨cd, hc, h5⟩⟩)
      · rw [if_neg h5]
        have hfit : Fits s p c := ⟨h1, hac, hfree.1 h4, fun t ht => hslot t ((hchild t).1 ht), fun ⟨nd, e1, e2⟩ => by
          rw [hc] at e1; cases e1; exact h5 e2⟩
        cases h6 : cd.parent with
        | none => rw [if_neg (by simp)]; exact .inl ⟨rfl, hfit, by rw [parentOf_some hc]; exact h6⟩
        | some q =>
          rw [if_pos (by simp)]
          refine .inr (.inl ⟨rfl, hfit, q, ?_, by rw [parentOf_some hc]; exact h6⟩)
          rintro rfl
          exact hcn ((hchild c).1 (by rw [parentOf_some hc]; exact h6))
    · rw [h4]
      refine .inr (.inr ⟨rfl, .inl fun h => ?_⟩)
      rw [hfree.2 h.free] at h4; cases h4

/-! ### what an accepted child changes -/

theorem attach_node {s : St} {p c : Nat} {pd cd : Node} (x : Nat) : (attach s p c pd cd).node x =
    if x = p then some { pd with names := insertNames c (keys cd) pd.names, children := pd.children ++ [c] }
      else if x = c then some { cd with parent := some p, priv := cd.priv + pd.priv }
      else match s.node x with
        | none => none
        | some nd => some (if under s c x then { nd with priv := nd.priv + pd.priv } else nd) := rfl

theorem attach_effect {s : St} (hw : WF s) {p c : Nat} {pd cd : Node} (hp : s.node p = some pd) (hc : s.node c = some cd) (hpc : p ≠ c)
    (hab : ¬ Above (parentOf s) c p) :
    parentOf (attach s p c pd cd) c = some p ∧ (∀ x, x ≠ c → parentOf (attach s p c pd cd) x = parentOf s x) ∧
    childrenOf (attach s p c pd cd) p = childrenOf s p ++ [c] ∧ (∀ x, x ≠ p → childrenOf (attach s p c pd cd) x = childrenOf s x) ∧
    (∀ x, identsOf (attach s p c pd cd) x = identsOf s x) ∧
    (∀ x, (x = c ∨ Above (parentOf s) c x) → levelOf (attach s p c pd cd) x = levelOf s x + levelOf s p) ∧
    (∀ x, ¬ (x = c ∨ Above (parentOf s) c x) → levelOf (attach s p c pd cd) x = levelOf s x) := by
  have hin : ∀ x xd, s.node x = some xd → ∃ yd, (attach s p c pd cd).node x = some yd ∧ (x ≠ c → yd.parent = xd.parent) ∧
      (x ≠ p → yd.children = xd.children) ∧ idents yd = idents xd := by
    intro x xd hx
    rw [attach_node]
    by_cases h1 : x = p
    · rw [if_pos h1]
      rw [h1, hp] at hx; cases hx
      exact ⟨_, rfl, fun _ => rfl, fun h => absurd h1 h, rfl⟩
    rw [if_neg h1]
    by_cases h2 : x = c
    · rw [if_pos h2]
      rw [h2, hc] at hx; cases hx
      exact ⟨_, rfl, fun h => absurd h2 h, fun _ => rfl, rfl⟩
    rw [if_neg h2, hx]
    refine ⟨_, rfl, ?_⟩
    cases under s c x <;> exact ⟨fun _ => rfl, fun _ => rfl, rfl⟩
  have hout : ∀ x, s.node x = none → (attach s p c pd cd).node x = none := by
    intro x hx
    rw [attach_node, if_neg (by rintro rfl; rw [hp] at hx; cases hx), if_neg (by rintro rfl; rw [hc] at hx; cases hx), hx]
  refine ⟨?_, ?_, ?_, ?_, ?_, ?_, ?_⟩
  · unfold parentOf
    rw [attach_node, if_neg (fun h => hpc h.symm), if_pos rfl]
  · intro x hxc
    cases hx : s.node x with
    | none => unfold parentOf; rw [hout x hx, hx]
    | some xd =>
      obtain ⟨yd, h1, h2, -⟩ := hin x xd hx
      rw [parentOf_some h1, parentOf_some hx, h2 hxc]
  · rw [childrenOf_some hp]
    unfold childrenOf
    rw [attach_node, if_pos rfl]
  · intro x hxp
    cases hx : s.node x with
    | none => unfold childrenOf; rw [hout x hx, hx]
    | some xd =>
      obtain ⟨yd, h1, -, h2, -⟩ := hin x xd hx
      rw [childrenOf_some h1, childrenOf_some hx, h2 hxp]
  · intro x
    cases hx : s.node x with
    | none => unfold identsOf; rw [hout x hx, hx]
    | some xd =>
      obtain ⟨yd, h1, -, -, h2⟩ := hin x xd hx
      rw [identsOf_some h1, identsOf_some hx, h2]
  · intro x hxu
    have hal : ∃ xd, s.node x = some xd := by
      rcases hxu with rfl | h
      · exact ⟨cd, hc⟩
      · cases h with
        | parent h => obtain ⟨xd, hx, -⟩ := parentOf_alive h; exact ⟨xd, hx⟩
        | up h _ => obtain ⟨xd, hx, -⟩ := parentOf_alive h; exact ⟨xd, hx⟩
    obtain ⟨xd, hx⟩ := hal
    obtain ⟨yd, h1, -⟩ := hin x xd hx
    obtain ⟨zd, h2, h3⟩ := attach_priv hw hp hc hpc hab h1
    have hu : under s c x = true := (hw.under_iff hx c).2 (by
      rcases hxu with h | h
      · exact .inl h.symm
      · exact .inr h)
    rw [levelOf_some h1, levelOf_some h2, levelOf_some hp, h3, if_pos hu]
  · intro x hxu
    cases hx : s.node x with
    | none => unfold levelOf; rw [hout x hx, hx]
    | some xd =>
      obtain ⟨yd, h1, -⟩ := hin x xd hx
      obtain ⟨zd, h2, h3⟩ := attach_priv hw hp hc hpc hab h1
      have hu : ¬ under s c x = true := fun h => hxu (by
        rcases (hw.under_iff hx c).1 h with h | h
        · exact .inl h.symm
        · exact .inr h)
      rw [levelOf_some h1, levelOf_some h2, h3, if_neg hu]; rfl

/-! ### locations exist -/

def NoPloc (s : St) : Prop := ∀ n nd, s.node n = some nd → nd.ploc = none

theorem attach_ploc {s : St} {p c x : Nat} {pd cd xd : Node} (hp : s.node p = some pd) (hc : s.node c = some cd)
    (hx : (attach s p c pd cd).node x = some xd) : ∃ yd, s.node x = some yd ∧ xd.ploc = yd.ploc := by
  change (if x = p then some { pd with names := insertNames c (keys cd) pd.names, children := pd.children ++ [c] }
      else if x = c then some { cd with parent := some p, priv := cd.priv + pd.priv }
      else match s.node x with
        | none => none
        | some nd => some (if under s c x then { nd with priv := nd.priv + pd.priv } else nd)) = some xd at hx
  by_cases h1 : x = p
  · rw [if_pos h1] at hx; cases hx; exact ⟨pd, h1 ▸ hp, rfl⟩
  rw [if_neg h1] at hx
  by_cases h2 : x = c
  · rw [if_pos h2] at hx; cases hx; exact ⟨cd, h2 ▸ hc, rfl⟩
  rw [if_neg h2] at hx
  cases hy : s.node x with
  | none => rw [hy] at hx; cases hx
  | some yd =>
    rw [hy] at hx
    cases hx
    refine ⟨yd, rfl, ?_⟩
    cases under s c x <;> rfl

theorem noPloc_step {s : St} {o : Op} (h : NoPloc s) (hd : ∀ n, o ≠ .destroy n) : NoPloc (step s o).1 := by
  refine step_keeps (P := NoPloc) (fun _ h => h) ?_ ?_ ?_ ?_ ?_ h
  · intro s parent nd s' h hp hc hn _ ha _ hpl hs
    have hal : NoPloc (alloc s nd) := by
      intro n xd hx
      by_cases h1 : n = s.next
      · rw [h1, alloc_next] at hx; cases hx
        first | exact hpl | assumption
      · rw [alloc_other h1] at hx; exact h n xd hx
    rcases (construct_ok hs).2.2 with ⟨-, rfl⟩ | ⟨p, -, -, had⟩
    · exact hal
    · obtain ⟨pd, cd, h1, h2, -, -, -, -, -, -, rfl⟩ := addChild_ok had
      intro n xd hx
      obtain ⟨yd, hy, e⟩ := attach_ploc h1 h2 hx
      rw [e]; exact hal n yd hy
  · intro s n a s' h hs
    obtain ⟨nd, hn, -, -, -, -, rfl⟩ := addAlias_ok hs
    intro x xd hx
    change (if x = n then some { nd with aliases := nd.aliases ++ [a] } else s.node x) = some xd at hx
    by_cases h1 : x = n
    · rw [if_pos h1] at hx; cases hx; exact h n nd hn
    · rw [if_neg h1] at hx; exact h x xd hx
  · intro s p c s' h hs
    obtain ⟨pd, cd, h1, h2, -, -, -, -, -, -, rfl⟩ := addChild_ok hs
    intro n xd hx
    obtain ⟨yd, hy, e⟩ := attach_ploc h1 h2 hx
    rw [e]; exact h n yd hy
  · intro s n s' h hs
    obtain ⟨-, rfl⟩ := makePrivate_ok hs
    intro x xd hx
    change (match s.node x with
      | none => none
      | some nd => some (if under s n x then { nd with priv := nd.priv + 1 } else nd)) = some xd at hx
    cases hy : s.node x with
    | none => rw [hy] at hx; cases hx
    | some yd =>
      rw [hy] at hx
      cases hx
      have := h x yd hy
      cases under s n x <;> exact this
  · intro n s' ho h hs
    exact absurd ho (hd n)

theorem noPloc_run {s : St} (h : NoPloc s) {ops : List Op} (hd : ∀ n, Op.destroy n ∉ ops) : NoPloc (runOps step s ops).1 := by
  induction ops generalizing s with
  | nil => exact h
  | cons o os ih =>
    exact ih (noPloc_step h (fun n e => hd n (e ▸ List.mem_cons_self))) (fun n hn => hd n (List.mem_cons_of_mem _ hn))

theorem noPloc_after {ops : List Op} (hd : ∀ n, Op.destroy n ∉ ops) : NoPloc (after ops) :=
  noPloc_run (fun n nd h => by cases h) hd

theorem loc_isSome {s : St} (hw : WF s) (hp : NoPloc s) {n : Nat} (ha : Alive s n) : ∃ t, getLocation s n = some t := by
  obtain ⟨nd, hn⟩ := Option.isSome_iff_exists.1 ha
  obtain ⟨d, hd⟩ := hw.lv hn
  clear ha
  induction hd generalizing nd with
  | @zero n h =>
    have hl : Lv (parentOf s) n 0 := .zero h
    unfold getLocation
    rw [locLoop_lv hl (hw.lv_lt hn hl), locLoop, hn]
    dsimp only
    rw [parentOf_some hn] at h
    rw [h, hp n nd hn]
    dsimp only
    by_cases hr : nd.root = true
    · rw [if_pos hr]; exact ⟨_, rfl⟩
    · rw [if_neg hr]; exact ⟨_, rfl⟩
  | @succ n p d h hl ih =>
    rw [parentOf_some hn] at h
    obtain ⟨pd, hpd, -⟩ := hw.parent_alive hn h
    obtain ⟨t, ht⟩ := ih _ hpd
    rw [hw.getLocation hn h, hp n nd hn, ht]
    exact ⟨_, rfl⟩

theorem loc_inj {s : St} (hw : WF s) (hn : NOK s) (hv : Valid s) {a n m : Nat} {l t : Str} (ha : getLocation s a = some l)
    (h1 : Above (parentOf s) a n) (h2 : Above (parentOf s) a m) (t1 : getLocation s n = some t) (t2 : getLocation s m = some t)
    (n1 : NamedTo s a n) (n2 : NamedTo s a m) : n = m := by
  obtain ⟨u, e1, g1⟩ := loc_round hw hn hv ha h1 t1 n1
  obtain ⟨v, e2, g2⟩ := loc_round hw hn hv ha h2 t2 n2
  rw [e1] at e2
  have : u = v := by simpa using e2
  rw [this, g2] at g1
  cases g1; rfl

/-! ### names -/

theorem alphanum_iff (c : Char) : c ∈ alphanum ↔ c.isAlphanum = true ∨ c = '_' := by
  constructor
  · intro h
    have : ∀ c ∈ alphanum, c.isAlphanum = true ∨ c = '_' := by decide
    exact this c h
  · intro h
    have key : ∀ k, k < 128 → ((Char.ofNat k).isAlphanum = true ∨ Char.ofNat k = '_') → Char.ofNat k ∈ alphanum := by decide +kernel
    have hlt : c.toNat < 128 := by
      rcases h with h | h
      · simp only [Char.isAlphanum, Char.isAlpha, Char.isUpper, Char.isLower, Char.isDigit, Bool.or_eq_true, Bool.and_eq_true,
          decide_eq_true_eq, ge_iff_le, UInt32.le_iff_toNat_le] at h
        show c.val.toNat < 128
        rcases h with (h | h) | h
        · have := h.2; simp at this; exact Nat.lt_of_le_of_lt this (by decide)
        · have := h.2; simp at this; exact Nat.lt_of_le_of_lt this (by decide)
        · have := h.2; simp at this; exact Nat.lt_of_le_of_lt this (by decide)
      · rw [h]; decide
    have := key c.toNat hlt
    rw [Char.ofNat_toNat] at this
    exact this h

theorem digit_iff (c : Char) : c ∈ digitChars ↔ c.isDigit = true := by
  constructor
  · intro h
    have : ∀ c ∈ digitChars, c.isDigit = true := by decide
    exact this c h
  · intro h
    have key : ∀ k, k < 128 → (Char.ofNat k).isDigit = true → Char.ofNat k ∈ digitChars := by decide +kernel
    have hlt : c.toNat < 128 := by
      simp only [Char.isDigit, Bool.and_eq_true, decide_eq_true_eq, ge_iff_le, UInt32.le_iff_toNat_le] at h
      have := h.2
      show c.val.toNat < 128
      simp at this; exact Nat.lt_of_le_of_lt this (by decide)
    have := key c.toNat hlt
    rw [Char.ofNat_toNat] at this
    exact this h

theorem findUU_none {s : Str} : findUU s = none ↔ ¬ ∃ u v, s = u ++ '_' :: '_' :: v := by
  induction s with
  | nil => exact ⟨fun _ ⟨u, v, h⟩ => by simp at h, fun _ => rfl⟩
  | cons c s ih =>
    by_cases h : ∃ v, c :: s = '_' :: '_' :: v
    · obtain ⟨v, h⟩ := h
      rw [h]
      exact ⟨fun h => by simp [findUU] at h, fun h => absurd ⟨[], v, rfl⟩ h⟩
    · have e : findUU (c :: s) = (findUU s).map (· + 1) := by
        rw [findUU]
        intro v h1 h2
        exact h ⟨v, by rw [h1, h2]⟩
      rw [e, Option.map_eq_none_iff, ih]
      constructor
      · rintro h1 ⟨u, v, h2⟩
        cases u with
        | nil => exact h ⟨v, h2⟩
        | cons d u => rw [List.cons_append] at h2; cases h2; exact h1 ⟨u, v, rfl⟩
      · rintro h1 ⟨u, v, h2⟩
        exact h1 ⟨c :: u, v, by rw [h2]; rfl⟩

theorem validName_iff {nm : Str} : validName nm = true ↔
    nm ∉ reserved ∧ uuRefused nm = false ∧ (∀ c ∈ nm.head?, c.isDigit = false) ∧ ∀ c ∈ nm, c.isAlphanum = true ∨ c = '_' := by
  unfold validName
  simp only [Bool.and_eq_true, Bool.not_eq_true', List.all_eq_true, List.contains_eq_mem, decide_eq_false_iff_not,
    decide_eq_true_eq, and_assoc]
  refine and_congr_right fun _ => and_congr_right fun _ => and_congr ?_ ?_
  · unfold startsDigit
    cases nm with
    | nil => simp
    | cons c nm =>
      simp only [List.head?_cons, List.contains_eq_mem, decide_eq_false_iff_not, Option.mem_def, Option.some.injEq, forall_eq']
      rw [digit_iff]
      simp
  · constructor
    · intro h c hc; exact (alphanum_iff c).1 (h c hc)
    · intro h c hc; exact (alphanum_iff c).2 (h c hc)

end Sparta.TNode
