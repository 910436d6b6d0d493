import Verif.Bus.Model
import Verif.Strings.Props
/-!
C253: binding two buses.
-/
namespace Sparta.Bus
open Strings (Str stripPattern)

theorem prefix_eq {x kw t : Str} (hx : '_' ∉ x) (hk : '_' ∉ kw) (h : kw ++ ['_'] ++ t = x ++ '_' :: kw) : x = kw := by
  have aux : ∀ (a b u v : Str), '_' ∉ a → '_' ∉ b → a ++ '_' :: u = b ++ '_' :: v → a = b := by
    intro a
    induction a with
    | nil =>
      intro b u v _ hb e
      cases b with
      | nil => rfl
      | cons c b =>
        simp only [List.nil_append, List.cons_append, List.cons.injEq] at e
        exact absurd (by rw [← e.1]; simp) hb
    | cons c a ih =>
      intro b u v ha hb e
      cases b with
      | nil =>
        simp only [List.nil_append, List.cons_append, List.cons.injEq] at e
        exact absurd (by rw [e.1]; simp) ha
      | cons d b =>
        simp only [List.cons_append, List.cons.injEq] at e
        rw [e.1, ih b u v (fun x => ha (by simp [x])) (fun x => hb (by simp [x])) e.2]
  exact (aux kw x t kw hk hx (by simpa using h)).symm

/-- **C253** the keywords do not matter at either end of a name -/
theorem C253_key (kw x : Str) (hx : '_' ∉ x) :
    key kw x = some x ∧ key kw (kw ++ ['_'] ++ x) = some x ∧ ('_' ∉ kw → kw ≠ [] → x ≠ kw → x ≠ [] → key kw (x ++ '_' :: kw) = some x) := by
  have hf : x.filter (· != '_') = x := by
    rw [List.filter_eq_self]
    intro c hc
    simp only [bne_iff_ne, ne_eq]
    rintro rfl
    exact hx hc
  have n1 : ¬ (kw ++ ['_']) <+: x := fun h => hx (h.subset (by simp))
  have n2 : ¬ (kw ++ ['_']) <:+ x := fun h => hx (h.subset (by simp))
  have n3 : ¬ ('_' :: kw) <+: x := fun h => hx (h.subset (by simp))
  have n4 : ¬ ('_' :: kw) <:+ x := fun h => hx (h.subset (by simp))
  have e2 : stripPattern ('_' :: kw) x = some x := (Strings.C74_pattern _ _).1 n3 n4
  refine ⟨?_, ?_, ?_⟩
  · unfold key
    rw [(Strings.C74_pattern _ _).1 n1 n2]
    dsimp only
    rw [e2]
    dsimp only
    rw [hf]
  · unfold key
    rw [(Strings.C74_pattern _ _).2.1 x rfl n2]
    dsimp only
    rw [e2]
    dsimp only
    rw [hf]
  · intro hk h0 hne hx0
    have m1 : ¬ (kw ++ ['_']) <+: (x ++ '_' :: kw) := fun ⟨t, h⟩ => hne (prefix_eq hx hk h)
    have m2 : ¬ (kw ++ ['_']) <:+ (x ++ '_' :: kw) := by
      rintro ⟨t, h⟩
      have e := congrArg List.getLast? h
      rw [← List.append_assoc, List.getLast?_concat, List.getLast?_append,
        List.getLast?_cons, List.getLast?_eq_some_getLast h0] at e
      simp only [Option.getD_some, Option.some_or, Option.some.injEq] at e
      exact hk (by rw [e]; exact List.getLast_mem h0)
    have m3 : ¬ ('_' :: kw) <+: (x ++ '_' :: kw) := by
      rintro ⟨t, h⟩
      cases x with
      | nil => exact hx0 rfl
      | cons c x =>
        simp only [List.cons_append, List.cons.injEq] at h
        exact hx (by rw [h.1]; simp)
    unfold key
    rw [(Strings.C74_pattern _ _).1 m1 m2]
    dsimp only
    rw [(Strings.C74_pattern _ _).2.2.1 x rfl m3]
    dsimp only
    rw [hf]

/-- **C253** underscores do not matter, with or without the keyword in front -/
theorem C253_underscores (kw y : Str) (h2 : ¬ (kw ++ ['_']) <:+ y)
    (h3 : ¬ ('_' :: kw) <+: y) (h4 : ¬ ('_' :: kw) <:+ y) :
    (¬ (kw ++ ['_']) <+: y → key kw y = some (y.filter (· != '_'))) ∧
    key kw (kw ++ ['_'] ++ y) = some (y.filter (· != '_')) := by
  constructor
  · intro h1
    unfold key
    rw [(Strings.C74_pattern _ _).1 h1 h2]
    dsimp only
    rw [(Strings.C74_pattern _ _).1 h3 h4]
  · unfold key
    rw [(Strings.C74_pattern _ _).2.1 y rfl h2]
    dsimp only
    rw [(Strings.C74_pattern _ _).1 h3 h4]

example : key "in".toList "in_my_data".toList = some "mydata".toList ∧ key "in".toList "my_data_in".toList = some "mydata".toList ∧
    key "out".toList "out_my_data".toList = some "mydata".toList := by decide +kernel

theorem strip_some (pat s : Str) : ∃ t, stripPattern pat s = some t := by
  unfold stripPattern
  have hs : (if Strings.find pat s = some 0 then pat.length else 0) ≤ s.length := by
    split
    · rename_i h
      have := (Strings.find_some h).2.1
      omega
    · omega
  have : ∀ n, ∃ t, Strings.substr s (if Strings.find pat s = some 0 then pat.length else 0) n = some t := by
    intro n
    unfold Strings.substr
    rw [if_pos hs]
    exact ⟨_, rfl⟩
  clear hs
  revert this
  dsimp only
  generalize (if Strings.find pat s = some 0 then pat.length else 0) = st
  intro this
  split
  · split
    · exact this _
    · split <;> exact this _
  · exact this _

theorem key_some (kw n : Str) : ∃ k, key kw n = some k := by
  unfold key
  obtain ⟨a, ha⟩ := strip_some (kw ++ ['_']) n
  rw [ha]
  obtain ⟨b, hb⟩ := strip_some ('_' :: kw) a
  dsimp only
  rw [hb]
  exact ⟨_, rfl⟩

/-- the key of a port -/
def K (kw : Str) (p : Port) : Str := (key kw p.name).getD []

theorem key_eq (kw : Str) (p : Port) : key kw p.name = some (K kw p) := by
  obtain ⟨k, h⟩ := key_some kw p.name
  simp [K, h]

/-- a port of one bus and a port of the other have the same name but for keywords and underscores -/
def same (kw : Str) (p : Port) (kw' : Str) (q : Port) : Prop := key kw p.name = key kw' q.name

theorem same_iff {kw kw' : Str} {p q : Port} : same kw p kw' q ↔ K kw p = K kw' q := by
  unfold same
  rw [key_eq, key_eq]
  simp

/-- the ports of a bus of one direction can be told apart -/
def distinct (kw : Str) (ps : List Port) : Prop := ps.Pairwise (fun p q => ¬ same kw p kw q)

def mk (kw : Str) (ps : List Port) : List (Str × Port) := ps.map (fun p => (K kw p, p))

theorem lookup_mk_none {kw : Str} {ps : List Port} {k : Str} : (mk kw ps).lookup k = none ↔ ∀ p ∈ ps, K kw p ≠ k := by
  unfold mk
  induction ps with
  | nil => simp
  | cons a l ih =>
    rw [List.map_cons, List.lookup_cons]
    by_cases h : k = K kw a
    · subst h; simp
    · have : (k == K kw a) = false := by simpa using h
      rw [this]
      simp only [List.mem_cons, forall_eq_or_imp]
      rw [ih]
      exact ⟨fun x => ⟨fun e => h e.symm, x⟩, fun x => x.2⟩

theorem lookup_mk_mem {kw : Str} {ps : List Port} {k : Str} {q : Port} (h : (mk kw ps).lookup k = some q) :
    q ∈ ps ∧ K kw q = k := by
  unfold mk at h
  induction ps with
  | nil => simp at h
  | cons a l ih =>
    rw [List.map_cons, List.lookup_cons] at h
    by_cases e : k = K kw a
    · subst e
      simp only [beq_self_eq_true] at h
      cases h
      simp
    · have : (k == K kw a) = false := by simpa using e
      rw [this] at h
      exact ⟨List.mem_cons_of_mem _ (ih h).1, (ih h).2⟩

theorem distinct_inj {kw : Str} {ps : List Port} (h : distinct kw ps) {p q : Port} (hp : p ∈ ps) (hq : q ∈ ps)
    (e : K kw p = K kw q) : p = q := by
  obtain ⟨m, hm, em⟩ := List.getElem_of_mem hp
  obtain ⟨n, hn, en⟩ := List.getElem_of_mem hq
  have hp := List.pairwise_iff_getElem.1 h
  rcases Nat.lt_trichotomy m n with x | x | x
  · have := hp m n hm hn x
    rw [em, en, same_iff] at this
    exact absurd e this
  · subst x; rw [← em, ← en]
  · have := hp n m hn hm x
    rw [em, en, same_iff] at this
    exact absurd e.symm this

theorem lookup_mk {kw : Str} {ps : List Port} (hd : distinct kw ps) {k : Str} {q : Port} :
    (mk kw ps).lookup k = some q ↔ q ∈ ps ∧ K kw q = k := by
  constructor
  · exact lookup_mk_mem
  · rintro ⟨hq, hk⟩
    rcases e : (mk kw ps).lookup k with _ | r
    · exact absurd hk (lookup_mk_none.1 e q hq)
    · obtain ⟨h1, h2⟩ := lookup_mk_mem e
      rw [distinct_inj hd h1 hq (h2.trans hk.symm)]

theorem populate_aux (kw : Str) : ∀ (ps : List Port) (m m' : List (Str × Port)), populate kw ps m = some m' ↔
    m' = m ++ mk kw ps ∧ distinct kw ps ∧ ∀ p ∈ ps, m.lookup (K kw p) = none
  | [], m, m' => by simp [populate, mk, distinct, eq_comm]
  | p :: ps, m, m' => by
    simp only [populate]
    rw [key_eq]
    dsimp only
    unfold distinct
    rw [List.pairwise_cons]
    by_cases h : m.lookup (K kw p) = none
    · rw [if_neg (by simp [h]), populate_aux kw ps]
      unfold distinct
      simp only [List.mem_cons, forall_eq_or_imp, h, true_and]
      have e : m ++ [(K kw p, p)] ++ mk kw ps = m ++ mk kw (p :: ps) := by simp [mk]
      rw [e]
      have l : ∀ q, (m ++ [(K kw p, p)]).lookup (K kw q) = none ↔ m.lookup (K kw q) = none ∧ ¬ same kw p kw q := by
        intro q
        rw [List.lookup_append, same_iff, List.lookup_cons, List.lookup_nil]
        by_cases hq : K kw q = K kw p
        · rw [hq]; simp
        · have : (K kw q == K kw p) = false := by simpa using hq
          rw [this]
          simp [Ne.symm hq]
      constructor
      · rintro ⟨h1, h2, h3⟩
        exact ⟨h1, ⟨fun q hq => ((l q).1 (h3 q hq)).2, h2⟩, fun q hq => ((l q).1 (h3 q hq)).1⟩
      · rintro ⟨h1, ⟨h2, h3⟩, h4⟩
        exact ⟨h1, h3, fun q hq => (l q).2 ⟨h4 q hq, h2 q hq⟩⟩
    · rw [if_pos (by rw [Option.isSome_iff_ne_none]; exact h)]
      constructor
      · intro x; cases x
      · rintro ⟨_, _, h3⟩
        exact absurd (h3 p (by simp)) h

theorem populate_iff {kw : Str} {ps : List Port} {m : List (Str × Port)} :
    populate kw ps [] = some m ↔ m = mk kw ps ∧ distinct kw ps := by
  rw [populate_aux]; simp

theorem populate_none {kw : Str} {ps : List Port} (h : ¬ distinct kw ps) : populate kw ps [] = none := by
  rcases e : populate kw ps [] with _ | m
  · rfl
  · exact absurd (populate_iff.1 e).2 h

/-- every port of one list has an equivalent in the other -/
def covered (kw : Str) (ps : List Port) (kw' : Str) (qs : List Port) : Prop := ∀ p ∈ ps, ∃ q ∈ qs, same kw p kw' q

theorem filter_mk {kw kw' : Str} {ps qs : List Port} :
    (((mk kw ps).filter (fun e => ((mk kw' qs).lookup e.1).isNone)).map (·.2)).length = 0 ↔ covered kw ps kw' qs := by
  rw [List.length_map, List.length_eq_zero_iff, List.filter_eq_nil_iff]
  unfold covered
  constructor
  · intro h p hp
    have := h (K kw p, p) (by unfold mk; exact List.mem_map.2 ⟨p, hp, rfl⟩)
    rw [Option.isNone_iff_eq_none, lookup_mk_none] at this
    obtain ⟨q, hq⟩ := Classical.not_forall.1 this
    have hq' := Classical.not_imp.1 hq
    exact ⟨q, hq'.1, same_iff.2 (Classical.not_not.1 hq'.2).symm⟩
  · intro h e he
    obtain ⟨p, hp, rfl⟩ := List.mem_map.1 he
    rw [Option.isNone_iff_eq_none, lookup_mk_none]
    obtain ⟨q, hq, hs⟩ := h p hp
    exact fun x => x q hq (same_iff.1 hs).symm

theorem check_iff {kw kw' : Str} {ps qs : List Port} :
    (checkBinding (mk kw ps) (mk kw' qs)).length = 0 ↔ covered kw ps kw' qs ∧ covered kw' qs kw ps := by
  unfold checkBinding
  rw [List.length_append, Nat.add_eq_zero_iff, filter_mk, filter_mk]

theorem bindPorts_iff {kw kw' : Str} {qs : List Port} (hd : distinct kw' qs) : ∀ (ps : List Port),
    ((bindPorts (mk kw' qs) (mk kw ps)).2 = true ↔ ∀ p ∈ ps, ∃ q ∈ qs, same kw p kw' q ∧ p.ty = q.ty) ∧
    ((bindPorts (mk kw' qs) (mk kw ps)).2 = true → (bindPorts (mk kw' qs) (mk kw ps)).1.length = ps.length ∧
      ∀ p q, (p, q) ∈ (bindPorts (mk kw' qs) (mk kw ps)).1 ↔ p ∈ ps ∧ q ∈ qs ∧ same kw p kw' q)
  | [] => by simp [mk, bindPorts]
  | p :: ps => by
    obtain ⟨ih1, ih2⟩ := bindPorts_iff (kw := kw) hd ps
    have e : mk kw (p :: ps) = (K kw p, p) :: mk kw ps := rfl
    rw [e]
    simp only [bindPorts]
    rcases hl : (mk kw' qs).lookup (K kw p) with _ | q
    · dsimp only
      refine ⟨⟨fun x => (by cases x), fun x => ?_⟩, fun x => (by cases x)⟩
      obtain ⟨q, hq, hs, _⟩ := x p (by simp)
      exact absurd (same_iff.1 hs).symm (lookup_mk_none.1 hl q hq)
    · obtain ⟨hq, hk⟩ := (lookup_mk hd).1 hl
      have uniq : ∀ q', q' ∈ qs → same kw p kw' q' → q' = q := by
        intro q' hq' hs
        exact distinct_inj hd hq' hq ((same_iff.1 hs).symm.trans hk.symm)
      dsimp only
      by_cases ht : p.ty = q.ty
      · rw [if_pos ht]
        dsimp only
        constructor
        · rw [ih1]
          simp only [List.mem_cons, forall_eq_or_imp]
          exact ⟨fun x => ⟨⟨q, hq, same_iff.2 hk.symm, ht⟩, x⟩, fun x => x.2⟩
        · intro hg
          obtain ⟨h1, h2⟩ := ih2 hg
          refine ⟨by rw [List.length_cons, h1, List.length_cons], fun p' q' => ?_⟩
          rw [List.mem_cons, h2, List.mem_cons, Prod.mk.injEq]
          constructor
          · rintro (⟨rfl, rfl⟩ | ⟨a, b, c⟩)
            · exact ⟨Or.inl rfl, hq, same_iff.2 hk.symm⟩
            · exact ⟨Or.inr a, b, c⟩
          · rintro ⟨rfl | a, b, c⟩
            · exact Or.inl ⟨rfl, uniq q' b c⟩
            · exact Or.inr ⟨a, b, c⟩
      · rw [if_neg ht]
        dsimp only
        refine ⟨⟨fun x => (by cases x), fun x => ?_⟩, fun x => (by cases x)⟩
        obtain ⟨q', hq', hs, h'⟩ := x p (by simp)
        rw [uniq q' hq' hs] at h'
        exact absurd h' ht

/-- the two buses are equivalent: their ports can be told apart, and every port has an equivalent of the other direction on the other bus -/
structure Equivalent (a b : Bus) : Prop where
  ai : distinct "in".toList a.ins
  ao : distinct "out".toList a.outs
  bi : distinct "in".toList b.ins
  bo : distinct "out".toList b.outs
  io : covered "in".toList a.ins "out".toList b.outs
  oi : covered "out".toList b.outs "in".toList a.ins
  io' : covered "out".toList a.outs "in".toList b.ins
  oi' : covered "in".toList b.ins "out".toList a.outs

/-- the equivalent ports have data of the same types -/
def Compatible (a b : Bus) : Prop :=
  (∀ p ∈ a.ins, ∀ q ∈ b.outs, same "in".toList p "out".toList q → p.ty = q.ty) ∧
  (∀ p ∈ a.outs, ∀ q ∈ b.ins, same "out".toList p "in".toList q → p.ty = q.ty)

theorem bind_not {a b : Bus} (h : ¬ Equivalent a b) : bind a b = ([], false) := by
  unfold bind
  by_cases h1 : distinct "in".toList a.ins
  case neg => rw [populate_none h1]
  by_cases h2 : distinct "out".toList a.outs
  case neg => rw [populate_none h2]; split <;> simp_all
  by_cases h3 : distinct "in".toList b.ins
  case neg => rw [populate_none h3]; split <;> simp_all
  by_cases h4 : distinct "out".toList b.outs
  case neg => rw [populate_none h4]; split <;> simp_all
  rw [populate_iff.2 ⟨rfl, h1⟩, populate_iff.2 ⟨rfl, h2⟩, populate_iff.2 ⟨rfl, h3⟩, populate_iff.2 ⟨rfl, h4⟩]
  dsimp only
  rw [if_pos]
  intro e
  rw [List.length_append, Nat.add_eq_zero_iff, check_iff, check_iff] at e
  exact h ⟨h1, h2, h3, h4, e.1.1, e.1.2, e.2.1, e.2.2⟩

theorem bind_eq {a b : Bus} (h : Equivalent a b) : bind a b =
    if (bindPorts (mk "out".toList b.outs) (mk "in".toList a.ins)).2 then
      ((bindPorts (mk "out".toList b.outs) (mk "in".toList a.ins)).1 ++ (bindPorts (mk "in".toList b.ins) (mk "out".toList a.outs)).1,
        (bindPorts (mk "in".toList b.ins) (mk "out".toList a.outs)).2)
    else ((bindPorts (mk "out".toList b.outs) (mk "in".toList a.ins)).1, false) := by
  unfold bind
  rw [populate_iff.2 ⟨rfl, h.ai⟩, populate_iff.2 ⟨rfl, h.ao⟩, populate_iff.2 ⟨rfl, h.bi⟩, populate_iff.2 ⟨rfl, h.bo⟩]
  dsimp only
  rw [if_neg]
  intro x
  apply x
  rw [List.length_append, Nat.add_eq_zero_iff, check_iff, check_iff]
  exact ⟨⟨h.io, h.oi⟩, h.io', h.oi'⟩

/-- **C253** Binding two buses succeeds exactly if they are equivalent and the types of equivalent ports agree. -/
theorem C253_succeeds (a b : Bus) : (bind a b).2 = true ↔ Equivalent a b ∧ Compatible a b := by
  by_cases h : Equivalent a b
  case neg =>
    rw [bind_not h]
    exact ⟨fun x => (by cases x), fun x => absurd x.1 h⟩
  obtain ⟨i1, -⟩ := bindPorts_iff (kw := "in".toList) h.bo a.ins
  obtain ⟨i2, -⟩ := bindPorts_iff (kw := "out".toList) h.bi a.outs
  have conv : ∀ (kw kw' : Str) (ps qs : List Port), distinct kw' qs → covered kw ps kw' qs →
      ((∀ p ∈ ps, ∃ q ∈ qs, same kw p kw' q ∧ p.ty = q.ty) ↔ ∀ p ∈ ps, ∀ q ∈ qs, same kw p kw' q → p.ty = q.ty) := by
    intro kw kw' ps qs hd hc
    constructor
    · intro x p hp q hq hs
      obtain ⟨r, hr, hs', ht⟩ := x p hp
      rw [distinct_inj hd hq hr ((same_iff.1 hs).symm.trans (same_iff.1 hs'))]
      exact ht
    · intro x p hp
      obtain ⟨q, hq, hs⟩ := hc p hp
      exact ⟨q, hq, hs, x p hp q hq hs⟩
  rw [conv _ _ _ _ h.bo h.io] at i1
  rw [conv _ _ _ _ h.bi h.io'] at i2
  rw [bind_eq h]
  unfold Compatible
  rw [← i1, ← i2]
  by_cases g : (bindPorts (mk "out".toList b.outs) (mk "in".toList a.ins)).2 = true
  · rw [if_pos g]
    exact ⟨fun x => ⟨h, g, x⟩, fun x => x.2.2⟩
  · rw [if_neg g]
    exact ⟨fun x => (by cases x), fun x => absurd x.2.1 g⟩

/-- **C253** If it succeeds, each port of either bus is bound to the one port of the other direction on the other bus that has its name but for
keywords and underscores, and to no other. -/
theorem C253_pairs (a b : Bus) (h : (bind a b).2 = true) :
    (bind a b).1.length = a.ins.length + a.outs.length ∧
    (∀ p q, (p, q) ∈ (bind a b).1 ↔
      (p ∈ a.ins ∧ q ∈ b.outs ∧ same "in".toList p "out".toList q) ∨
      (p ∈ a.outs ∧ q ∈ b.ins ∧ same "out".toList p "in".toList q)) := by
  have he := ((C253_succeeds a b).1 h).1
  obtain ⟨-, i1⟩ := bindPorts_iff (kw := "in".toList) he.bo a.ins
  obtain ⟨-, i2⟩ := bindPorts_iff (kw := "out".toList) he.bi a.outs
  rw [bind_eq he] at h ⊢
  by_cases g : (bindPorts (mk "out".toList b.outs) (mk "in".toList a.ins)).2 = true
  · rw [if_pos g] at h ⊢
    obtain ⟨l1, m1⟩ := i1 g
    obtain ⟨l2, m2⟩ := i2 h
    refine ⟨by rw [List.length_append, l1, l2], fun p q => ?_⟩
    rw [List.mem_append, m1, m2]
  · rw [if_neg g] at h
    cases h

/-- **C253** If it succeeds, the equivalent of a port exists and is unique, for the ports of either bus. -/
theorem C253_once (a b : Bus) (h : (bind a b).2 = true) :
    (∀ p ∈ a.ins, ∃ q, (q ∈ b.outs ∧ same "in".toList p "out".toList q ∧ (p, q) ∈ (bind a b).1) ∧
      ∀ q' ∈ b.outs, same "in".toList p "out".toList q' → q' = q) ∧
    (∀ p ∈ a.outs, ∃ q, (q ∈ b.ins ∧ same "out".toList p "in".toList q ∧ (p, q) ∈ (bind a b).1) ∧
      ∀ q' ∈ b.ins, same "out".toList p "in".toList q' → q' = q) ∧
    (∀ q ∈ b.outs, ∃ p, (p ∈ a.ins ∧ same "in".toList p "out".toList q ∧ (p, q) ∈ (bind a b).1) ∧
      ∀ p' ∈ a.ins, same "in".toList p' "out".toList q → p' = p) ∧
    (∀ q ∈ b.ins, ∃ p, (p ∈ a.outs ∧ same "out".toList p "in".toList q ∧ (p, q) ∈ (bind a b).1) ∧
      ∀ p' ∈ a.outs, same "out".toList p' "in".toList q → p' = p) := by
  have he := ((C253_succeeds a b).1 h).1
  have hm := (C253_pairs a b h).2
  refine ⟨?_, ?_, ?_, ?_⟩
  · intro p hp
    obtain ⟨q, hq, hs⟩ := he.io p hp
    exact ⟨q, ⟨hq, hs, (hm p q).2 (Or.inl ⟨hp, hq, hs⟩)⟩,
      fun q' hq' hs' => distinct_inj he.bo hq' hq ((same_iff.1 hs').symm.trans (same_iff.1 hs))⟩
  · intro p hp
    obtain ⟨q, hq, hs⟩ := he.io' p hp
    exact ⟨q, ⟨hq, hs, (hm p q).2 (Or.inr ⟨hp, hq, hs⟩)⟩,
      fun q' hq' hs' => distinct_inj he.bi hq' hq ((same_iff.1 hs').symm.trans (same_iff.1 hs))⟩
  · intro q hq
    obtain ⟨p, hp, hs⟩ := he.oi q hq
    have hs : same "in".toList p "out".toList q := Eq.symm hs
    exact ⟨p, ⟨hp, hs, (hm p q).2 (Or.inl ⟨hp, hq, hs⟩)⟩,
      fun p' hp' hs' => distinct_inj he.ai hp' hp ((same_iff.1 hs').trans (same_iff.1 hs).symm)⟩
  · intro q hq
    obtain ⟨p, hp, hs⟩ := he.oi' q hq
    have hs : same "out".toList p "in".toList q := Eq.symm hs
    exact ⟨p, ⟨hp, hs, (hm p q).2 (Or.inr ⟨hp, hq, hs⟩)⟩,
      fun p' hp' hs' => distinct_inj he.ao hp' hp ((same_iff.1 hs').trans (same_iff.1 hs).symm)⟩

/-- **C253** (for compatible buses; otherwise see C253_half_violated) If it fails nothing is bound. -/
theorem C253_nothing_partial (a b : Bus) (hc : Compatible a b) (h : (bind a b).2 = false) : (bind a b).1 = [] := by
  by_cases he : Equivalent a b
  · rw [(C253_succeeds a b).2 ⟨he, hc⟩] at h
    cases h
  · rw [bind_not he]

/-- two equivalent buses -/
def busA : Bus := ⟨[⟨"in_ack".toList, 1⟩], [⟨"out_req".toList, 2⟩, ⟨"data_out".toList, 3⟩]⟩
def busB : Bus := ⟨[⟨"req_in".toList, 2⟩, ⟨"in_data".toList, 3⟩], [⟨"out_ack".toList, 1⟩]⟩

example : (bind busA busB).2 = true ∧ (bind busA busB).1 = [(⟨"in_ack".toList, 1⟩, ⟨"out_ack".toList, 1⟩),
    (⟨"out_req".toList, 2⟩, ⟨"req_in".toList, 2⟩), (⟨"data_out".toList, 3⟩, ⟨"in_data".toList, 3⟩)] := by decide +kernel

example : (bind busA busA).2 = false := by decide +kernel

/-- **C253** is violated if the data of equivalent ports differ in type: the call throws, but the ports before are bound. -/
theorem C253_half_violated :
    bind ⟨[⟨"in_a".toList, 1⟩, ⟨"in_b".toList, 1⟩], []⟩ ⟨[], [⟨"out_a".toList, 1⟩, ⟨"out_b".toList, 2⟩]⟩ =
      ([(⟨"in_a".toList, 1⟩, ⟨"out_a".toList, 1⟩)], false) := by decide +kernel

end Sparta.Bus
