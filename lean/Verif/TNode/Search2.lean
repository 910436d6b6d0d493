import Verif.TNode.Search
/-!
Matching a location against a pattern; the deepest path; privacy.
-/
namespace Sparta.TNode
open Sparta.Strings (Str)
open Sparta.PTree (joinDots names names_join Tok tok tokMatch dot Glob OkName MatchPath)

/-! ### from the end of a pattern -/

theorem findIdx_app {a u : Str} (ha : '.' ∉ a) : (a ++ '.' :: u).findIdx? (· == '.') = some a.length := by
  induction a with
  | nil => rfl
  | cons c a ih =>
    have hc : c ≠ '.' := by rintro rfl; exact ha List.mem_cons_self
    rw [List.cons_append, List.findIdx?_cons, if_neg (by simpa using hc), ih (fun h => ha (List.mem_cons_of_mem _ h))]
    rfl

theorem findIdx_none {a : Str} (ha : '.' ∉ a) : a.findIdx? (· == '.') = none := by
  rw [List.findIdx?_eq_none_iff]
  intro x hx
  have : x ≠ '.' := by rintro rfl; exact ha hx
  simpa using this

theorem prevName_last {u a : Str} (hu : u ≠ []) (ha : '.' ∉ a) : prevName (u ++ '.' :: a) = (a, some u) := by
  have e : (u ++ '.' :: a).reverse = a.reverse ++ '.' :: u.reverse := by simp
  have hl : (u ++ '.' :: a).length = u.length + 1 + a.length := by simp; omega
  have hup : 0 < u.length := List.length_pos_iff.2 hu
  unfold prevName
  rw [e, findIdx_app (by simpa using ha)]
  dsimp only
  rw [List.length_reverse, hl, if_neg (by omega)]
  have h1 : u.length + 1 + a.length - a.length = u.length + 1 := by omega
  have h2 : u.length + 1 + a.length - a.length - 1 = u.length := by omega
  rw [h1, Nat.add_sub_cancel]
  congr 1
  · rw [show u ++ '.' :: a = (u ++ ['.']) ++ a by simp, List.drop_left' (by simp)]
  · rw [List.take_left' rfl]

theorem prevName_only {a : Str} (ha : '.' ∉ a) : prevName a = (a, none) := by
  unfold prevName
  rw [findIdx_none (by simpa using ha)]

theorem prevNames_some {t r : Str} (h : (prevName t).2 = some r) : prevNames t = (prevName t).1 :: prevNames r := by
  rw [prevNames]
  split
  · rename_i r' h'; rw [h] at h'; cases h'; rfl
  · rename_i h'; rw [h] at h'; cases h'

theorem prevNames_none {t : Str} (h : (prevName t).2 = none) : prevNames t = [(prevName t).1] := by
  rw [prevNames]
  split
  · rename_i r' h'; rw [h] at h'; cases h'
  · rfl

theorem prevNames_rev {M : List Str} (h0 : M ≠ []) (h : ∀ x ∈ M, x ≠ [] ∧ '.' ∉ x) : prevNames (joinDots M.reverse) = M := by
  induction M with
  | nil => exact absurd rfl h0
  | cons a M ih =>
    rw [List.reverse_cons]
    cases M with
    | nil =>
      have e := prevName_only (h a List.mem_cons_self).2
      show prevNames a = [a]
      rw [prevNames_none (by rw [e]), e]
    | cons b M =>
      have h' : ∀ x ∈ b :: M, x ≠ [] ∧ '.' ∉ x := fun x hx => h x (List.mem_cons_of_mem _ hx)
      have hne : joinDots (b :: M).reverse ≠ [] := PTree.joinDots_ne (by simp) (fun x hx => (h' x (List.mem_reverse.1 hx)).1)
      rw [joinDots_snoc (by simp)]
      have e := prevName_last hne (h a List.mem_cons_self).2
      rw [prevNames_some (by rw [e]), e, ih (by simp) h']

theorem prevNames_join {L : List Str} (h0 : L ≠ []) (h : ∀ x ∈ L, x ≠ [] ∧ '.' ∉ x) : prevNames (joinDots L) = L.reverse := by
  have := prevNames_rev (M := L.reverse) (by simpa using h0) (fun x hx => h x (List.mem_reverse.1 hx))
  rwa [List.reverse_reverse] at this

/-! ### upwards -/

theorem WF.upFrom {s : St} (hw : WF s) {start n : Nat} {nd : Node} (hn : s.node n = some nd) : upFrom s start n nd = nd.parent := by
  unfold TNode.upFrom
  cases hp : nd.parent with
  | some p => rfl
  | none =>
    dsimp only
    cases hs : s.node start with
    | none => rfl
    | some sd =>
      dsimp only
      rw [if_neg]
      intro hc
      obtain ⟨cd, hcd, hcp⟩ := hw.child_alive hs (List.contains_iff_mem.1 hc)
      rw [hn] at hcd; cases hcd
      rw [hp] at hcp; cases hcp

theorem anyMatch_iff {nm : Str} {ids : List Str} : anyMatch (nm.map tok) ids = true ↔ ∃ k ∈ ids, Glob nm k := by
  unfold anyMatch
  rw [List.any_eq_true]
  constructor
  · rintro ⟨k, h1, h2⟩; exact ⟨k, h1, (PTree.tokMatch_glob _ _).1 h2⟩
  · rintro ⟨k, h1, h2⟩; exact ⟨k, h1, (PTree.tokMatch_glob _ _).2 h2⟩

theorem matchPath_snoc {L : List Str} {t : Str} {ks : List Str} :
    MatchPath (L ++ [t]) ks ↔ ∃ ks' k, ks = ks' ++ [k] ∧ MatchPath L ks' ∧ Glob t k := by
  induction L generalizing ks with
  | nil =>
    cases ks with
    | nil =>
      constructor
      · intro h; exact h.elim
      · rintro ⟨ks', k, h, -⟩; simp at h
    | cons a ks =>
      cases ks with
      | nil =>
        constructor
        · intro h; exact ⟨[], a, rfl, trivial, h.1⟩
        · rintro ⟨ks', k, h, h1, h2⟩
          cases ks' with
          | nil => simp at h; rw [h]; exact ⟨h2, trivial⟩
          | cons => exact h1.elim
      | cons b ks =>
        constructor
        · intro h; exact h.2.elim
        · rintro ⟨ks', k, h, h1, h2⟩
          cases ks' with
          | nil => simp at h
          | cons => exact h1.elim
  | cons a L ih =>
    cases ks with
    | nil =>
      constructor
      · intro h; exact h.elim
      · rintro ⟨ks', k, h, -⟩; simp at h
    | cons b ks =>
      rw [List.cons_append, MatchPath, ih]
      constructor
      · rintro ⟨h1, ks', k, rfl, h2, h3⟩
        exact ⟨b :: ks', k, rfl, ⟨h1, h2⟩, h3⟩
      · rintro ⟨ks', k, h, h1, h2⟩
        cases ks' with
        | nil => exact h1.elim
        | cons c ks' =>
          rw [List.cons_append] at h
          cases h
          exact ⟨h1.1, ks', k, rfl, h1.2, h2⟩

theorem matchUp_spec {s : St} (hw : WF s) {start : Nat} {toks : List Str} (ht : ∀ t ∈ toks, t ≠ [] ∧ OkName t) {n : Nat}
    (ha : (s.node n).isSome) :
    ∃ b, matchUp s start toks n = .ok b ∧
      (b = true ↔ toks ≠ [] ∧ ∃ ks, Down s (identsOf s) start ks n ∧ MatchPath toks.reverse ks) := by
  induction toks generalizing n with
  | nil => exact ⟨false, rfl, by simp⟩
  | cons t rest ih =>
    have ht' : ∀ t ∈ rest, t ≠ [] ∧ OkName t := fun x hx => ht x (List.mem_cons_of_mem _ hx)
    obtain ⟨nd, hnd⟩ := Option.isSome_iff_exists.1 ha
    have ht0 := ht t List.mem_cons_self
    rw [matchUp, hnd]
    dsimp only
    rw [if_neg ht0.1, regexOf_ok ht0.2]
    dsimp only
    have hR : (t :: rest ≠ [] ∧ ∃ ks, Down s (identsOf s) start ks n ∧ MatchPath (t :: rest).reverse ks) ↔
        ∃ q k ks, nd.parent = some q ∧ k ∈ idents nd ∧ Glob t k ∧ Down s (identsOf s) start ks q ∧ MatchPath rest.reverse ks := by
      rw [List.reverse_cons]
      constructor
      · rintro ⟨-, ks, h1, h2⟩
        obtain ⟨ks', k, rfl, h3, h4⟩ := matchPath_snoc.1 h2
        obtain ⟨q, h5, h6, h7⟩ := h1.unsnoc
        rw [parentOf_some hnd] at h6
        rw [identsOf_some hnd] at h7
        exact ⟨q, k, ks', h6, h7, h4, h5, h3⟩
      · rintro ⟨q, k, ks, h6, h7, h4, h5, h3⟩
        refine ⟨by simp, ks ++ [k], h5.snoc (by rw [parentOf_some hnd]; exact h6) (by rw [identsOf_some hnd]; exact h7), ?_⟩
        exact matchPath_snoc.2 ⟨ks, k, rfl, h3, h4⟩
    rw [hR]
    by_cases hm : anyMatch (t.map tok) (idents nd) = true
    · rw [if_pos hm, hw.upFrom hnd]
      obtain ⟨k, hk, hg⟩ := anyMatch_iff.1 hm
      cases hp : nd.parent with
      | none =>
        refine ⟨false, rfl, ?_⟩
        constructor
        · intro h; cases h
        · rintro ⟨q, _, _, h, -⟩; cases h
      | some q =>
        dsimp only
        obtain ⟨qd, hqd, -⟩ := hw.parent_alive hnd hp
        by_cases hq : q = start ∧ rest = []
        · rw [if_pos hq]
          refine ⟨true, rfl, ?_⟩
          constructor
          · intro _; refine ⟨q, k, [], rfl, hk, hg, ?_, ?_⟩
            · rw [hq.1]; exact .here _
            · rw [hq.2]; exact trivial
          · intro _; rfl
        · rw [if_neg hq]
          obtain ⟨b, hb, hbi⟩ := ih ht' (n := q) (by rw [hqd]; rfl)
          refine ⟨b, hb, hbi.trans ?_⟩
          constructor
          · rintro ⟨-, ks, h1, h2⟩; exact ⟨q, k, ks, rfl, hk, hg, h1, h2⟩
          · rintro ⟨q', k', ks, h, -, -, h1, h2⟩
            cases h
            refine ⟨?_, ks, h1, h2⟩
            rintro rfl
            have : ks = [] := by
              cases ks with
              | nil => rfl
              | cons => exact h2.elim
            rw [this] at h1
            cases h1
            exact hq ⟨rfl, rfl⟩
    · rw [if_neg hm]
      refine ⟨false, rfl, ?_⟩
      constructor
      · intro h; cases h
      · rintro ⟨q, k, ks, -, hk, hg, -⟩
        exact absurd (anyMatch_iff.2 ⟨k, hk, hg⟩) hm

theorem reach_iff {s : St} {K : Nat → List Str} {L : List Str} (hne : ∀ p ∈ L, p ≠ []) {n x : Nat} :
    Reach s true K L n x ↔ ∃ ks, Down s K n ks x ∧ MatchPath L ks := by
  constructor
  · intro h; exact h.path hne
  · rintro ⟨ks, h1, h2⟩
    induction h1 generalizing L with
    | here n => cases L with
      | nil => exact .here n
      | cons => exact h2.elim
    | step h3 h4 _ ih => cases L with
      | nil => exact h2.elim
      | cons a L =>
        exact .down (hne a List.mem_cons_self) h3 h4 h2.1 (.inl rfl) (ih (fun p hp => hne p (List.mem_cons_of_mem _ hp)) h2.2)

/-! ### privacy -/

theorem Down.level_le {s : St} (hw : WF s) (hl : Lvl s) {K : Nat → List Str} {n x : Nat} {ks : List Str} (h : Down s K n ks x) :
    levelOf s n ≤ levelOf s x := by
  induction h with
  | here n => exact Nat.le_refl _
  | step h1 _ _ ih =>
    obtain ⟨cd, hc, hcp⟩ := parentOf_alive h1
    obtain ⟨pd, hp, -⟩ := hw.parent_alive hc hcp
    have := hl _ cd _ pd hc hcp hp
    rw [levelOf_some hp]
    rw [levelOf_some hc] at ih
    omega

theorem above_level_le {s : St} (hw : WF s) (hl : Lvl s) {n x : Nat} (h : Above (parentOf s) n x) : levelOf s n ≤ levelOf s x := by
  have key : ∀ {n c}, parentOf s c = some n → levelOf s n ≤ levelOf s c := by
    intro n c h1
    obtain ⟨cd, hc, hcp⟩ := parentOf_alive h1
    obtain ⟨pd, hp, -⟩ := hw.parent_alive hc hcp
    rw [levelOf_some hp, levelOf_some hc]
    exact hl _ cd _ pd hc hcp hp
  induction h with
  | parent h => exact key h
  | up h _ ih => exact Nat.le_trans ih (key h)

/-- the node is not visible from its parent -/
def PrivateIn (s : St) (c : Nat) : Prop := ∃ p, parentOf s c = some p ∧ levelOf s c ≠ levelOf s p

theorem level_eq_iff {s : St} (hw : WF s) (hl : Lvl s) {n x : Nat} (h : Above (parentOf s) n x) :
    levelOf s x = levelOf s n ↔ ∀ y, (y = x ∨ Above (parentOf s) y x) → Above (parentOf s) n y → ¬ PrivateIn s y := by
  constructor
  · intro he y hy hny hpriv
    obtain ⟨p, hp, hne⟩ := hpriv
    have h1 : levelOf s y ≤ levelOf s x := by
      rcases hy with rfl | hy
      · exact Nat.le_refl _
      · exact above_level_le hw hl hy
    have h2 : levelOf s n ≤ levelOf s p := by
      cases hny with
      | parent h => rw [hp] at h; cases h; exact Nat.le_refl _
      | up h h' => rw [hp] at h; cases h; exact above_level_le hw hl h'
    have h3 : levelOf s p ≤ levelOf s y := above_level_le hw hl (.parent hp)
    omega
  · intro hall
    induction h with
    | @parent x h =>
      have h1 := hall x (.inl rfl) (.parent h)
      cases Nat.decEq (levelOf s x) (levelOf s n) with
      | isTrue h => exact h
      | isFalse h2 => exact absurd ⟨n, h, h2⟩ h1
    | @up x p h hab ih =>
      have h1 := hall x (.inl rfl) (.up h hab)
      have h2 := ih (fun y hy => hall y (.inr (by
        rcases hy with rfl | hy
        · exact .parent h
        · exact .up h hy)))
      rw [← h2]
      cases Nat.decEq (levelOf s x) (levelOf s p) with
      | isTrue h => exact h
      | isFalse h3 => exact absurd ⟨p, h, h3⟩ h1

theorem getChild_false {s : St} (hw : WF s) (hn : NOK s) {n x : Nat} {path : Str} (ha : (s.node n).isSome) :
    getChild s false n path = .ok (some x) ↔ getChild s true n path = .ok (some x) ∧ levelOf s x = levelOf s n := by
  rw [getChild_all]
  unfold getChild
  by_cases h : path = []
  · rw [if_pos h, h, PTree.names_nil]
    constructor
    · intro h1; cases h1; exact ⟨rfl, rfl⟩
    · rintro ⟨h1, -⟩; exact h1
  · rw [if_neg h]
    obtain ⟨r, hr, hal⟩ := walk_safe hw hn (ks := names path) ha
    rw [hr]
    cases r with
    | none =>
      constructor
      · intro h1; cases h1
      · rintro ⟨h1, -⟩; cases h1
    | some y =>
      dsimp only
      obtain ⟨nd, hnd⟩ := Option.isSome_iff_exists.1 ha
      obtain ⟨yd, hyd⟩ := Option.isSome_iff_exists.1 (hal y rfl)
      unfold visible canSee
      rw [if_neg (by simp), hnd, hyd]
      dsimp only
      by_cases hb : nd.priv = yd.priv
      · rw [if_pos (by rw [hb]; simp)]
        constructor
        · intro h1; cases h1; exact ⟨rfl, by rw [levelOf_some hyd, levelOf_some hnd, hb]⟩
        · rintro ⟨h1, -⟩; exact h1
      · rw [if_neg (by simpa using hb)]
        constructor
        · intro h1; cases h1
        · rintro ⟨h1, h2⟩
          cases h1
          rw [levelOf_some hyd, levelOf_some hnd] at h2
          exact absurd h2.symm hb

/-- a node that has been made private: it stays more private than its parent -/
def PrivInv (c : Nat) (s : St) : Prop := c < s.next ∧ ∀ cd, s.node c = some cd →
  1 ≤ cd.priv ∧ ∀ p pd, cd.parent = some p → s.node p = some pd → pd.priv < cd.priv

theorem privInv_alloc {s : St} {c : Nat} (hw : WF s) (h : PrivInv c s) {nd : Node} : PrivInv c (alloc s nd) := by
  have hne : c ≠ s.next := by have := h.1; omega
  refine ⟨Nat.lt_succ_of_lt h.1, ?_⟩
  intro cd hcd
  rw [alloc_other hne] at hcd
  refine ⟨(h.2 cd hcd).1, ?_⟩
  intro p pd hcp hpd
  obtain ⟨pd', hpd', -⟩ := hw.parent_alive hcd hcp
  rw [alloc_other (by rintro rfl; rw [hw.fresh] at hpd'; cases hpd')] at hpd
  exact (h.2 cd hcd).2 p pd hcp hpd

theorem privInv_addChild {s s' : St} {c : Nat} (hw : WF s) (h : PrivInv c s) {p d : Nat} (ha : addChild s p d = .ok s') : PrivInv c s' := by
  obtain ⟨pd, dd, hp, hd, hpd, hanc, -, -, -, hdp, rfl⟩ := addChild_ok ha
  have hab : ¬ Above (parentOf s) d p := fun hab => hanc ((hw.mem_ancestry hp d).2 (.inr hab))
  refine ⟨h.1, ?_⟩
  intro xd hx
  obtain ⟨yd, hy, -, hpar, hparc, -⟩ := attach_back hp hd hpd hx
  obtain ⟨yd', hy', e1⟩ := attach_priv hw hp hd hpd hab hx
  rw [hy] at hy'; cases hy'
  obtain ⟨h1, h2⟩ := h.2 yd hy
  refine ⟨by omega, ?_⟩
  intro q qd hxq hq
  obtain ⟨zd, hz, e2⟩ := attach_priv hw hp hd hpd hab hq
  by_cases h3 : c = d
  · have h4 := hparc h3
    rw [hxq] at h4; cases h4
    rw [hp] at hz; cases hz
    have hnu : under s d p = false := by
      cases hu : under s d p with
      | false => rfl
      | true =>
        rcases (hw.under_iff hp d).1 hu with h2 | h2
        · exact absurd h2.symm hpd
        · exact absurd h2 hab
    rw [h3, (hw.under_iff hd d).2 (.inl rfl), if_pos rfl] at e1
    rw [hnu, if_neg (by simp)] at e2
    omega
  · rw [hpar h3] at hxq
    have := h2 q zd hxq hz
    have hm : under s d q = true → under s d c = true := hw.under_child hy hxq hz
    rw [e1, e2]
    by_cases hu : under s d q = true
    · rw [if_pos hu, if_pos (hm hu)]; omega
    · rw [if_neg hu]; omega

theorem privInv_privatized {s : St} {c n : Nat} (hw : WF s) (h : PrivInv c s) : PrivInv c (privatized s n) := by
  refine ⟨h.1, ?_⟩
  intro xd hx
  obtain ⟨yd, hy, -, e0, -⟩ := priv_back' hx
  obtain ⟨yd', hy', e1⟩ := priv_priv hx
  rw [hy] at hy'; cases hy'
  obtain ⟨h1, h2⟩ := h.2 yd hy
  refine ⟨by omega, ?_⟩
  intro q qd hxq hq
  obtain ⟨zd, hz, e2⟩ := priv_priv hq
  rw [e0] at hxq
  have := h2 q zd hxq hz
  have hm : under s n q = true → under s n c = true := hw.under_child hy hxq hz
  rw [e1, e2]
  by_cases hu : under s n q = true
  · rw [if_pos hu, if_pos (hm hu)]; omega
  · rw [if_neg hu]; omega

theorem privInv_made {s : St} {c : Nat} (hw : WF s) (hl : Lvl s) (hc : (s.node c).isSome) : PrivInv c (privatized s c) := by
  obtain ⟨cd, hcd⟩ := Option.isSome_iff_exists.1 hc
  refine ⟨hw.lt c _ (shape_some hcd), ?_⟩
  intro xd hx
  obtain ⟨yd, hy, -, e0, -⟩ := priv_back' hx
  obtain ⟨yd', hy', e1⟩ := priv_priv hx
  rw [hy] at hy'; cases hy'
  rw [(hw.under_iff hy c).2 (.inl rfl), if_pos rfl] at e1
  refine ⟨by omega, ?_⟩
  intro q qd hxq hq
  obtain ⟨zd, hz, e2⟩ := priv_priv hq
  rw [e0] at hxq
  have := hl c yd q zd hy hxq hz
  have hnu : under s c q = false := by
    cases hu : under s c q with
    | false => rfl
    | true =>
      obtain ⟨d, hd⟩ := hw.lv hy
      have hpar : parentOf s c = some q := by rw [parentOf_some hy]; exact hxq
      rcases (hw.under_iff hz c).1 hu with h2 | h2
      · exact absurd (Above.parent (h2 ▸ hpar)) (Above.irrefl hd)
      · exact absurd (Above.up hpar h2) (Above.irrefl hd)
  rw [hnu, if_neg (by simp)] at e2
  omega

theorem privInv_step {s : St} {c : Nat} (o : Op) (hw : WF s) (h : PrivInv c s) : PrivInv c (step s o).1 := by
  refine (step_keeps (P := fun s => WF s ∧ PrivInv c s) (fun _ h => h) ?_ ?_ ?_ ?_ ?_ ⟨hw, h⟩).2
  · intro s parent nd s' h hp hc hn _ ha _ _ hs
    refine ⟨wf_construct h.1 hp hc hs, ?_⟩
    rcases (construct_ok hs).2.2 with ⟨-, rfl⟩ | ⟨p, -, -, had⟩
    · exact privInv_alloc h.1 h.2
    · exact privInv_addChild (wf_alloc h.1 hp hc) (privInv_alloc h.1 h.2) had
  · intro s n a s' h hs
    refine ⟨wf_addAlias h.1 hs, ?_⟩
    obtain ⟨nd, hn, -, -, -, -, rfl⟩ := addAlias_ok hs
    have hback : ∀ x xd, (if x = n then some { nd with aliases := nd.aliases ++ [a] } else s.node x) = some xd →
        ∃ yd, s.node x = some yd ∧ xd.parent = yd.parent ∧ xd.priv = yd.priv := by
      intro x xd hx
      by_cases h1 : x = n
      · rw [if_pos h1] at hx; cases hx
        exact ⟨nd, h1 ▸ hn, rfl, rfl⟩
      · rw [if_neg h1] at hx; exact ⟨xd, hx, rfl, rfl⟩
    refine ⟨h.2.1, ?_⟩
    intro cd hc
    obtain ⟨yd, hy, e1, e2⟩ := hback c cd hc
    rw [e1, e2]
    refine ⟨(h.2.2 yd hy).1, ?_⟩
    intro p pd hcp hp
    obtain ⟨zd, hz, -, e3⟩ := hback p pd hp
    rw [e3]
    exact (h.2.2 yd hy).2 p zd hcp hz
  · exact fun s p d s' h hs => ⟨wf_addChild h.1 hs, privInv_addChild h.1 h.2 hs⟩
  · intro s n s' h hs
    refine ⟨wf_makePrivate h.1 hs, ?_⟩
    obtain ⟨-, rfl⟩ := makePrivate_ok hs
    exact privInv_privatized h.1 h.2
  · intro n s' ho h hs
    refine ⟨wf_destroy h.1 hs, ?_⟩
    obtain ⟨nd, l, hn, rfl, -⟩ := destroy_ok hs
    refine ⟨h.2.1, ?_⟩
    intro cd hc
    obtain ⟨-, yd, hy, -, -, -, e1, e2, -⟩ := detach_back' hc
    rw [e1]
    refine ⟨(h.2.2 yd hy).1, ?_⟩
    intro p pd hcp hp
    obtain ⟨-, zd, hz, -, -, -, e3, -⟩ := detach_back' hp
    rw [e3]
    refine (h.2.2 yd hy).2 p zd ?_ hz
    rcases e2 with e2 | e2
    · rw [← e2]; exact hcp
    · rw [e2] at hcp; cases hcp

theorem privInv_after {o1 o2 : List Op} {c : Nat} (hd : (after o1).dead = false) (hc : Alive (after o1) c) :
    PrivInv c (after (o1 ++ .makePrivate c :: o2)) := by
  unfold after
  rw [runOps_append]
  have hw := wf_after o1
  have e : (step (after o1) (.makePrivate c)).1 = privatized (after o1) c := by
    obtain ⟨cd, hcd⟩ := Option.isSome_iff_exists.1 hc
    unfold step
    rw [if_neg (by rw [hd]; simp)]
    show (finish (after o1) .ok (makePrivate (after o1) c)).1 = _
    unfold makePrivate
    rw [hcd]
    rfl
  show PrivInv c (runOps step (step (after o1) (.makePrivate c)).1 o2).1
  have h1 : WF (privatized (after o1) c) ∧ PrivInv c (privatized (after o1) c) :=
    ⟨hw.congr (fun x => shape_privatized x) rfl, privInv_made hw (lvl_after o1) hc⟩
  rw [e]
  exact (runOps_invariant step (fun s => WF s ∧ PrivInv c s) (fun _ o h => ⟨wf_step o h.1, privInv_step o h.1 h.2⟩) _ h1 o2).2

/-! ### the deepest path -/

/-- no node has a group -/
def NoGroup (s : St) : Prop := ∀ n nd, s.node n = some nd → nd.group = []

theorem keys_nogroup {s : St} (hg : NoGroup s) {n : Nat} {nd : Node} (hn : s.node n = some nd) : keys nd = idents nd := by
  unfold keys groupKey; rw [if_pos (hg n nd hn)]; simp

theorem glob_self {p : Str} (h : ∀ c ∈ p, isWild c = false) (t : Str) : Glob p t ↔ t = p :=
  PTree.glob_plain (fun c hc => by
    have := h c hc
    unfold isWild at this
    simp only [Bool.or_eq_false_iff, beq_eq_false_iff_ne, ne_eq] at this
    exact ⟨this.1.1, this.1.2, this.2⟩)

theorem imm_plain {s : St} (hn : NOK s) (hg : NoGroup s) {n : Nat} {nd : Node} (hnd : s.node n = some nd) {k : Str}
    (hk : ∀ c ∈ k, isWild c = false) :
    ∃ out, immLoop s false n (k.map tok) nd.names [] = .ok out ∧ out.length ≤ 1 ∧
      ∀ c, c ∈ out.map Prod.fst ↔ parentOf s c = some n ∧ k ∈ identsOf s c ∧ levelOf s c = levelOf s n := by
  obtain ⟨out, h1, h2, h3, h4⟩ := immLoop_spec (s := s) (all := false) (n := n) (r := k.map tok) (by rw [hnd]; rfl) nd.names []
    (fun e he => by
      obtain ⟨cd, hcd, -⟩ := hn.sound n nd e.1 e.2 hnd he
      rw [hcd]; rfl)
  rw [List.nil_append] at h1 h3 h4
  have hmem : ∀ c, c ∈ out.map Prod.fst ↔ parentOf s c = some n ∧ k ∈ identsOf s c ∧ levelOf s c = levelOf s n := by
    intro c
    constructor
    · intro hc
      obtain ⟨⟨c', reps⟩, hc', e⟩ := List.mem_map.1 hc
      cases e
      obtain ⟨k', hk', hcap, hv⟩ := h2 c' reps hc'
      have := (glob_self hk k').1 (capture_some_iff.1 ⟨reps, hcap⟩)
      rw [this] at hk'
      obtain ⟨cd, hcd, hcp, hck⟩ := hn.sound n nd k c' hnd hk'
      rw [keys_nogroup hg hcd] at hck
      exact ⟨by rw [parentOf_some hcd]; exact hcp, by rw [identsOf_some hcd]; exact hck, hv.resolve_left (by simp)⟩
    · rintro ⟨h5, h6, h7⟩
      obtain ⟨cd, hcd, hcp⟩ := parentOf_alive h5
      rw [identsOf_some hcd] at h6
      have := lookup_mem (hn.complete c cd n nd k hcd hcp hnd h6)
      exact h3 k c this (Option.isSome_iff_exists.2 (capture_some_iff.2 ((glob_self hk k).2 rfl))) (.inr h7)
  refine ⟨out, h1, ?_, hmem⟩
  have huniq : ∀ a ∈ out.map Prod.fst, ∀ b ∈ out.map Prod.fst, a = b := by
    intro a ha b hb
    obtain ⟨a1, a2, -⟩ := (hmem a).1 ha
    obtain ⟨b1, b2, -⟩ := (hmem b).1 hb
    obtain ⟨ad, had, hap⟩ := parentOf_alive a1
    obtain ⟨bd, hbd, hbp⟩ := parentOf_alive b1
    rw [identsOf_some had] at a2
    rw [identsOf_some hbd] at b2
    have e1 := hn.complete a ad n nd k had hap hnd a2
    have e2 := hn.complete b bd n nd k hbd hbp hnd b2
    rw [e1] at e2; cases e2; rfl
  match out, h4 List.nodup_nil, huniq with
  | [], _, _ => simp
  | [a], _, _ => simp
  | a :: b :: l, hnd2, hu =>
    exfalso
    have := hu a.1 (by simp) b.1 (by simp)
    simp [this] at hnd2

theorem deep_path {s : St} (hw : WF s) (hn : NOK s) (hl : Lvl s) (hv : Valid s) (hg : NoGroup s) {n m : Nat} {L1 L2 : List Str} {k : Str}
    (ha : (s.node n).isSome) (h : Down s (fun c => [nameOf s c]) n L1 m) (h1 : ∀ a ∈ L1, a ≠ []) (hlev : levelOf s m = levelOf s n)
    (hk : k ≠ []) (hok : OkName k) (hpl : ∀ c ∈ k, isWild c = false)
    (hno : ∀ c, parentOf s c = some m → k ∈ identsOf s c → levelOf s c ≠ levelOf s m) :
    ∃ d, deep s (L1 ++ k :: L2) n = .ok (d, joinDots L1) := by
  induction h with
  | here n =>
    obtain ⟨nd, hnd⟩ := Option.isSome_iff_exists.1 ha
    obtain ⟨out, ho, -, hmem⟩ := imm_plain hn hg hnd hpl
    rw [List.nil_append, deep, hnd]
    dsimp only
    rw [if_neg hk, regexOf_ok hok]
    dsimp only
    rw [ho]
    cases out with
    | nil => exact ⟨0, rfl⟩
    | cons a out =>
      obtain ⟨b1, b2, b3⟩ := (hmem a.1).1 (by simp)
      exact absurd b3 (hno a.1 b1 b2)
  | @step n c x a L1 hp hm hd ih =>
    obtain ⟨nd, hnd⟩ := Option.isSome_iff_exists.1 ha
    obtain ⟨cd, hcd, hcp⟩ := parentOf_alive hp
    have hma : a = cd.name := by rw [List.mem_singleton.1 hm, nameOf_some hcd]
    have hai : a ∈ identsOf s c := by
      have h2 : Down s (identsOf s) n [a] c := down_names_idents (.step hp hm (.here c)) (fun b hb => by
        rw [List.mem_singleton.1 hb]; exact h1 a List.mem_cons_self)
      obtain ⟨q, -, -, h3⟩ := Down.unsnoc (ks := []) h2
      exact h3
    have hle1 := Down.level_le hw hl (.step (K := identsOf s) hp hai (.here c))
    have hle2 := Down.level_le hw hl hd
    have hcl : levelOf s c = levelOf s n := by omega
    have hav : validName a = true := by rw [hma]; exact (hv c cd hcd).1
    have hapl : ∀ ch ∈ a, isWild ch = false := by
      intro ch hch
      have := alphanum_ok (validName_chars hav ch hch)
      unfold isWild
      simp [this.2.1, this.2.2.1, this.2.2.2.1]
    have haok : OkName a := fun ch hch => (alphanum_ok (validName_chars hav ch hch)).1
    obtain ⟨out, ho, hlen, hmem⟩ := imm_plain hn hg hnd hapl
    obtain ⟨d, hdd⟩ := ih (by rw [hcd]; rfl) (fun b hb => h1 b (List.mem_cons_of_mem _ hb)) (by omega) hno
    rw [List.cons_append, deep, hnd]
    dsimp only
    rw [if_neg (h1 a List.mem_cons_self), regexOf_ok haok]
    dsimp only
    rw [ho]
    have hcin : c ∈ out.map Prod.fst := (hmem c).2 ⟨hp, hai, hcl⟩
    match out, hlen, hcin with
    | [], _, h => cases h
    | [(c', r)], _, h =>
      have : c = c' := by simpa using h
      subst this
      dsimp only
      rw [deepLoop, hdd, hcd]
      dsimp only
      rw [if_pos (Nat.zero_le _), deepLoop]
      refine ⟨1 + d, ?_⟩
      congr 2
      rw [← hma]
      cases L1 with
      | nil => simp [joinDots]
      | cons b L1 =>
        have hne : joinDots (b :: L1) ≠ [] := PTree.joinDots_ne (by simp) (fun x hx => h1 x (List.mem_cons_of_mem _ hx))
        dsimp only
        rw [if_neg hne]; rfl
    | _ :: _ :: _, h, _ => simp at h

end Sparta.TNode
