import Verif.TNode.Answers
/-!
C149-C159: the device tree.  `ops` are the constructions, destructions and other changes, in any order; the queries are made after
them.
-/
namespace Sparta.TNode
open Sparta.Strings (Str)
open Sparta.PTree (joinDots names names_join OkName MatchPath Glob)

/-- a root, two cores in a group, a private cache and another unit in the first core, an orphan with an alias -/
def sample : List Op :=
  [.newRoot "top".toList, .new (some 0) "core0".toList "core".toList 0 true, .new (some 0) "core1".toList "core".toList 1 true,
   .new (some 1) "l1".toList [] idxNone true, .new (some 1) "fpu".toList [] idxNone true, .makePrivate 3,
   .new none "orphan".toList [] idxNone true, .addAlias 5 "o".toList]

/-- no destructions -/
def Grows (ops : List Op) : Prop := ∀ n, Op.destroy n ∉ ops

theorem sample_grows : Grows sample := by intro n; simp [sample]

theorem sample_tidy : Tidy init sample := tidy_of_no_destroy sample_grows

-- C149

/-- Whatever was built and torn down: parents and children agree, no child occurs twice, no node is above itself, and the way up
ends. -/
theorem C149_tree (ops : List Op) : (∀ n c, c ∈ childrenOf (after ops) n ↔ parentOf (after ops) c = some n) ∧
    (∀ n, (childrenOf (after ops) n).Nodup) ∧ (∀ n, ¬ Above (parentOf (after ops)) n n) ∧
    (∀ n, Alive (after ops) n → ∃ d, Lv (parentOf (after ops)) n d) ∧
    (∀ n p, parentOf (after ops) n = some p → Alive (after ops) n ∧ Alive (after ops) p) := by
  have hw := wf_after ops
  have hpar : ∀ n p, parentOf (after ops) n = some p → ∃ nd pd, (after ops).node n = some nd ∧ (after ops).node p = some pd ∧ n ∈ pd.children := by
    intro n p h
    obtain ⟨nd, hn, hp⟩ := parentOf_alive h
    obtain ⟨pd, hpd, hm⟩ := hw.parent_alive hn hp
    exact ⟨nd, pd, hn, hpd, hm⟩
  refine ⟨?_, ?_, ?_, ?_, ?_⟩
  · intro n c
    constructor
    · intro h
      unfold childrenOf at h
      split at h
      · cases h
      · rename_i nd hn
        obtain ⟨cd, hc, hp⟩ := hw.child_alive hn h
        rw [parentOf_some hc]; exact hp
    · intro h
      obtain ⟨cd, nd, -, hn, hm⟩ := hpar c n h
      rw [childrenOf_some hn]; exact hm
  · intro n
    unfold childrenOf
    split
    · exact List.nodup_nil
    · rename_i nd hn; exact hw.nodup n _ (shape_some hn)
  · intro n h
    obtain ⟨nd, hn⟩ := hw.above_alive h
    obtain ⟨d, hd⟩ := hw.lv hn
    exact Above.irrefl hd h
  · intro n ha
    obtain ⟨nd, hn⟩ := Option.isSome_iff_exists.1 ha
    exact hw.lv hn
  · intro n p h
    obtain ⟨nd, pd, hn, hp, -⟩ := hpar n p h
    exact ⟨by unfold Alive; rw [hn]; rfl, by unfold Alive; rw [hp]; rfl⟩

example : childrenOf (after sample) 0 = [1, 2] ∧ childrenOf (after sample) 1 = [3, 4] ∧ parentOf (after sample) 5 = none ∧
    (step (after sample) (.addChild 5 0)).2 = .fail .throw ∧ (step (after sample) (.addChild 4 1)).2 = .fail .throw := by decide +kernel

-- C150

/-- A child is accepted exactly when it has no parent and there is room for it: it is another node and not an ancestor, the new
parent knows nothing under its name and aliases, nobody has its place in its group, and it is not a root.  If it has another parent,
then the call fails half way; in every other case nothing changes. -/
theorem C150_add_child_partial (ops : List Op) (ht : Tidy init ops) (hd : (after ops).dead = false) (p c : Nat)
    (hp : Alive (after ops) p) (hc : Alive (after ops) c) :
    ((step (after ops) (.addChild p c)).2 = .ok ↔ Fits (after ops) p c ∧ parentOf (after ops) c = none) ∧
    ((step (after ops) (.addChild p c)).2 = .fail .critical ↔ Fits (after ops) p c ∧ ∃ q, q ≠ p ∧ parentOf (after ops) c = some q) ∧
    ((step (after ops) (.addChild p c)).2 = .fail .throw ↔ ¬ Fits (after ops) p c ∨ parentOf (after ops) c = some p) ∧
    ((step (after ops) (.addChild p c)).2 = .fail .throw → (step (after ops) (.addChild p c)).1 = after ops) := by
  obtain ⟨pd, hpd⟩ := Option.isSome_iff_exists.1 hp
  obtain ⟨cd, hcd⟩ := Option.isSome_iff_exists.1 hc
  unfold step
  rw [if_neg (by rw [hd]; simp)]
  show ((finish (after ops) .ok (addChild (after ops) p c)).2 = .ok ↔ _) ∧ ((finish (after ops) .ok (addChild (after ops) p c)).2 = .fail .critical ↔ _) ∧
    ((finish (after ops) .ok (addChild (after ops) p c)).2 = .fail .throw ↔ _) ∧ ((finish (after ops) .ok (addChild (after ops) p c)).2 = .fail .throw →
      (finish (after ops) .ok (addChild (after ops) p c)).1 = after ops)
  rcases addChild_exact (wf_after ops) (nok_after ht) (valid_after ops) hpd hcd with ⟨h, h1, h2⟩ | ⟨h, h1, q, h2, h3⟩ | ⟨h, h1⟩
  · rw [h]
    refine ⟨⟨fun _ => ⟨h1, h2⟩, fun _ => rfl⟩, ⟨(fun h => by cases h), ?_⟩, ⟨(fun h => by cases h), ?_⟩, (fun h => by cases h)⟩
    · rintro ⟨-, q, -, h3⟩; rw [h2] at h3; cases h3
    · rintro (h3 | h3)
      · exact absurd h1 h3
      · rw [h2] at h3; cases h3
  · rw [h]
    refine ⟨⟨(fun h => by cases h), ?_⟩, ⟨fun _ => ⟨h1, q, h2, h3⟩, fun _ => rfl⟩, ⟨(fun h => by cases h), ?_⟩, (fun h => by cases h)⟩
    · rintro ⟨-, h4⟩; rw [h3] at h4; cases h4
    · rintro (h4 | h4)
      · exact absurd h1 h4
      · rw [h3] at h4; cases h4; exact absurd rfl h2
  · rw [h]
    refine ⟨⟨(fun h => by cases h), ?_⟩, ⟨(fun h => by cases h), ?_⟩, ⟨fun _ => h1, fun _ => rfl⟩, fun _ => rfl⟩
    · rintro ⟨h2, h3⟩
      rcases h1 with h1 | h1
      · exact absurd h2 h1
      · rw [h3] at h1; cases h1
    · rintro ⟨h2, q, h3, h4⟩
      rcases h1 with h1 | h1
      · exact absurd h2 h1
      · rw [h4] at h1; cases h1; exact absurd rfl h3

example : Tidy init sample ∧ (after sample).dead = false ∧ (step (after sample) (.addChild 2 5)).2 = .ok ∧
    (step (after sample) (.addChild 2 4)).2 = .fail .critical ∧ (step (after sample) (.addChild 1 4)).2 = .fail .throw ∧
    (step (after (sample ++ [.new (some 2) "o".toList [] idxNone true])) (.addChild 2 5)).2 = .fail .throw :=
  ⟨sample_tidy, by decide +kernel⟩

/-- What an accepted child changes: it is the last child of its new parent; it and everything below it gets the level of privacy of
the parent on top.  Everything else stays. -/
theorem C150_effect (ops : List Op) (p c : Nat) (h : (step (after ops) (.addChild p c)).2 = .ok) :
    parentOf (after (ops ++ [.addChild p c])) c = some p ∧
    (∀ x, x ≠ c → parentOf (after (ops ++ [.addChild p c])) x = parentOf (after ops) x) ∧
    childrenOf (after (ops ++ [.addChild p c])) p = childrenOf (after ops) p ++ [c] ∧
    (∀ x, x ≠ p → childrenOf (after (ops ++ [.addChild p c])) x = childrenOf (after ops) x) ∧
    (∀ x, identsOf (after (ops ++ [.addChild p c])) x = identsOf (after ops) x) ∧
    (∀ x, (x = c ∨ Above (parentOf (after ops)) c x) →
      levelOf (after (ops ++ [.addChild p c])) x = levelOf (after ops) x + levelOf (after ops) p) ∧
    (∀ x, ¬ (x = c ∨ Above (parentOf (after ops)) c x) → levelOf (after (ops ++ [.addChild p c])) x = levelOf (after ops) x) := by
  have hw := wf_after ops
  have e : after (ops ++ [.addChild p c]) = (step (after ops) (.addChild p c)).1 := by
    unfold after; rw [runOps_append]; rfl
  rw [e]
  have hdead : (after ops).dead = false := by
    cases hd : (after ops).dead with
    | false => rfl
    | true => unfold step at h; rw [if_pos hd] at h; cases h
  have e2 : step (after ops) (.addChild p c) = finish (after ops) .ok (addChild (after ops) p c) := by
    unfold step; rw [if_neg (by rw [hdead]; simp)]; rfl
  rw [e2] at h ⊢
  cases ha : addChild (after ops) p c with
  | error er => rw [ha] at h; cases er <;> cases h
  | ok s' =>
    obtain ⟨pd, cd, h1, h2, h3, h4, -, -, -, -, rfl⟩ := addChild_ok ha
    exact attach_effect hw h1 h2 h3 (fun h => h4 ((hw.mem_ancestry h1 c).2 (.inr h)))

example : (step (after (sample ++ [.makePrivate 2])) (.addChild 2 5)).2 = .ok ∧
    levelOf (after (sample ++ [.makePrivate 2, .addChild 2 5])) 5 = 1 := by decide +kernel

/-- Group and index are a name too, but they are not compared with what is there: a node is accepted whose group and index are the
name of a sibling.  The other way round it is refused. -/
theorem C150_group_alias_violated : ∃ ops a b : List Op,
    (runOps step init (ops ++ a ++ b)).2.all (fun r => match r with | .node _ => true | _ => false) = true ∧
    (runOps step init (ops ++ b ++ a)).2.getLast? = some (.fail .throw) :=
  ⟨[.newRoot "top".toList], [.new (some 0) "g0".toList [] idxNone true], [.new (some 0) "x".toList "g".toList 0 true], by decide +kernel⟩

/-- A node with a parent is entered as a child of a second one before the call fails; the program cannot go on. -/
theorem C150_second_parent_violated : ∃ ops p c, (after ops).dead = false ∧ parentOf (after ops) c ≠ none ∧
    (step (after ops) (.addChild p c)).2 = .fail .critical ∧ (step (after ops) (.addChild p c)).1.dead = true :=
  ⟨sample, 2, 4, by decide +kernel⟩

-- C151

/-- The location of a node is the location of any ancestor, a dot, and a path by which the ancestor finds the node. -/
theorem C151_location_round_trip_partial (ops : List Op) (ht : Tidy init ops) (a n : Nat) (l t : Str)
    (hab : Above (parentOf (after ops)) a n) (ha : getLocation (after ops) a = some l) (hn : getLocation (after ops) n = some t)
    (hnm : ∀ x, (x = n ∨ Above (parentOf (after ops)) x n) → Above (parentOf (after ops)) a x → nameOf (after ops) x ≠ []) :
    ∃ path, t = l ++ '.' :: path ∧ getChild (after ops) true a path = .ok (some n) :=
  loc_round (wf_after ops) (nok_after ht) (valid_after ops) ha hab hn hnm

/-- Two nodes below an ancestor have different locations. -/
theorem C151_locations_differ_partial (ops : List Op) (ht : Tidy init ops) (a n m : Nat) (l t : Str)
    (h1 : Above (parentOf (after ops)) a n) (h2 : Above (parentOf (after ops)) a m) (ha : getLocation (after ops) a = some l)
    (t1 : getLocation (after ops) n = some t) (t2 : getLocation (after ops) m = some t)
    (n1 : ∀ x, (x = n ∨ Above (parentOf (after ops)) x n) → Above (parentOf (after ops)) a x → nameOf (after ops) x ≠ [])
    (n2 : ∀ x, (x = m ∨ Above (parentOf (after ops)) x m) → Above (parentOf (after ops)) a x → nameOf (after ops) x ≠ []) : n = m :=
  loc_inj (wf_after ops) (nok_after ht) (valid_after ops) ha h1 h2 t1 t2 n1 n2

/-- While nothing has been destroyed, every node has a location. -/
theorem C151_location_exists_partial (ops : List Op) (hg : Grows ops) (n : Nat) (ha : Alive (after ops) n) :
    ∃ t, getLocation (after ops) n = some t :=
  loc_isSome (wf_after ops) (noPloc_after hg) ha

example : Tidy init sample ∧ Above (parentOf (after sample)) 0 3 ∧ getLocation (after sample) 0 = some "top".toList ∧
    getLocation (after sample) 3 = some "top.core0.l1".toList ∧ nameOf (after sample) 3 ≠ [] ∧ nameOf (after sample) 1 ≠ [] ∧
    getChild (after sample) true 0 "core0.l1".toList = .ok (some 3) ∧ getLocation (after sample) 5 = some "~orphan".toList ∧ Grows sample :=
  ⟨sample_tidy, .up (p := 1) (by decide +kernel) (.parent (by decide +kernel)), by decide +kernel, by decide +kernel, by decide +kernel,
    by decide +kernel, by decide +kernel, by decide +kernel, sample_grows⟩

/-- Nodes without a name that are only in a group share their location, and the path in it does not lead back. -/
theorem C151_anonymous_violated : ∃ ops, Tidy init ops ∧ parentOf (after ops) 1 = some 0 ∧ parentOf (after ops) 2 = some 0 ∧
    getLocation (after ops) 1 = some "top.".toList ∧ getLocation (after ops) 2 = some "top.".toList ∧
    getChild (after ops) true 0 [] = .ok (some 0) ∧ getChild (after ops) true 0 "g0".toList = .ok (some 1) :=
  ⟨[.newRoot "top".toList, .new (some 0) [] "g".toList 0 true, .new (some 0) [] "g".toList 1 true],
    tidy_of_no_destroy (by intro n; simp), by decide +kernel⟩

/-- A node whose parent was destroyed and that is then added to another parent has no location: the assertion in `getLocation` fails. -/
theorem C151_second_home_violated : ∃ ops, Tidy init ops ∧ parentOf (after ops) 2 = some 3 ∧ getLocation (after ops) 2 = none :=
  ⟨[.newRoot "top".toList, .new (some 0) "a".toList [] idxNone true, .new (some 1) "b".toList [] idxNone true,
    .new (some 0) "c".toList [] idxNone true, .destroy 1, .addChild 3 2], by
    refine ⟨⟨nofun, nofun, nofun, nofun, ?_, nofun, trivial⟩, by decide +kernel⟩
    intro n hn nd hnd
    cases hn
    refine .inr fun k hk => ?_
    have : ∀ nd, (step (step (step (step init (.newRoot "top".toList)).1 (.new (some 0) "a".toList [] idxNone true)).1
      (.new (some 1) "b".toList [] idxNone true)).1 (.new (some 0) "c".toList [] idxNone true)).1.node 1 = some nd → nd.group = [] := by
      have e : ((step (step (step (step init (.newRoot "top".toList)).1 (.new (some 0) "a".toList [] idxNone true)).1
        (.new (some 1) "b".toList [] idxNone true)).1 (.new (some 0) "c".toList [] idxNone true)).1.node 1).map Node.group = some [] := by
        decide +kernel
      intro nd h
      rw [h] at e
      exact Option.some.inj e
    unfold groupKey at hk
    rw [if_pos (this nd hnd)] at hk
    cases hk⟩

/-- A node in a group is still found under its group and index after it was destroyed. -/
theorem C151_destroyed_child_violated : ∃ ops, (after ops).dead = false ∧ ¬ Alive (after ops) 1 ∧
    getChild (after ops) true 0 "g0".toList = .ok (some 1) ∧ getChild (after ops) false 0 "g0".toList = .error .ub :=
  ⟨[.newRoot "top".toList, .new (some 0) "a".toList "g".toList 0 true, .destroy 1], by unfold Alive; decide +kernel⟩

-- C152

/-- A path of names or aliases leads to the node that has them. -/
theorem C152_path_found_partial (ops : List Op) (ht : Tidy init ops) (n x : Nat) (ks : List Str)
    (h : Down (after ops) (identsOf (after ops)) n ks x) : getChild (after ops) true n (joinDots ks) = .ok (some x) :=
  getChild_path (wf_after ops) (nok_after ht) (valid_after ops) h

/-- What is found has the names of the path: its names, aliases or group with index. -/
theorem C152_found_is_path_partial (ops : List Op) (ht : Tidy init ops) (n x : Nat) (ks : List Str) (hk : ∀ k ∈ ks, k ≠ [] ∧ '.' ∉ k)
    (h : getChild (after ops) true n (joinDots ks) = .ok (some x)) : Down (after ops) (keysOf (after ops)) n ks x := by
  rw [getChild_all, names_join hk] at h
  exact walk_back (nok_after ht) (fun k hm => (hk k hm).1) h

/-- A path may be walked in parts. -/
theorem C152_in_parts (ops : List Op) (n : Nat) (k1 k2 : List Str) (h1 : ∀ k ∈ k1, k ≠ [] ∧ '.' ∉ k) (h2 : ∀ k ∈ k2, k ≠ [] ∧ '.' ∉ k)
    (m : Nat) (h : getChild (after ops) true n (joinDots k1) = .ok (some m)) :
    getChild (after ops) true n (joinDots (k1 ++ k2)) = getChild (after ops) true m (joinDots k2) := by
  rw [getChild_all, names_join h1] at h
  rw [getChild_all, getChild_all, names_join h2, names_join (by
    intro k hk
    rcases List.mem_append.1 hk with hk | hk
    · exact h1 k hk
    · exact h2 k hk), walk_append, h]

/-- A dot leads to the parent. -/
theorem C152_dot (ops : List Op) (n : Nat) (ha : Alive (after ops) n) : getChild (after ops) true n ['.'] = .ok (parentOf (after ops) n) := by
  obtain ⟨nd, hn⟩ := Option.isSome_iff_exists.1 ha
  have : names ['.'] = [[]] := by decide +kernel
  rw [getChild_all, this, walk, hn]
  dsimp only
  rw [if_pos rfl, parentOf_some hn]
  cases nd.parent <;> rfl

/-- Lookups do not fail, find only nodes that exist, and `hasChild` says whether `getChild` finds something. -/
theorem C152_has_iff_get_partial (ops : List Op) (ht : Tidy init ops) (all : Bool) (n : Nat) (path : Str) (ha : Alive (after ops) n) :
    ∃ r, getChild (after ops) all n path = .ok r ∧ (∀ x, r = some x → Alive (after ops) x) ∧
      hasChild (after ops) all n path = .ok r.isSome := by
  unfold getChild hasChild
  by_cases h : path = []
  · rw [if_pos h, if_pos h]; exact ⟨some n, rfl, fun x hx => by cases hx; exact ha, rfl⟩
  rw [if_neg h, if_neg h]
  obtain ⟨r, hr, hal⟩ := walk_safe (wf_after ops) (nok_after ht) (ks := names path) ha
  rw [hr]
  cases r with
  | none => exact ⟨none, rfl, (fun x hx => by cases hx), rfl⟩
  | some y =>
    dsimp only
    cases all with
    | true => exact ⟨some y, rfl, hal, rfl⟩
    | false =>
      obtain ⟨nd, hnd⟩ := Option.isSome_iff_exists.1 ha
      obtain ⟨yd, hyd⟩ := Option.isSome_iff_exists.1 (hal y rfl)
      unfold visible canSee
      rw [if_neg (by simp), if_neg (by simp), hnd, hyd]
      dsimp only
      by_cases hb : (nd.priv == yd.priv) = true
      · rw [hb]; exact ⟨some y, rfl, hal, rfl⟩
      · rw [Bool.not_eq_true] at hb
        rw [hb]; exact ⟨none, rfl, (fun x hx => by cases hx), rfl⟩

example : Down (after sample) (identsOf (after sample)) 0 ["core0".toList, "fpu".toList] 4 ∧
    getChild (after sample) true 0 "core0.fpu".toList = .ok (some 4) ∧ getChild (after sample) true 4 "..core1".toList = .ok (some 2) ∧
    getChild (after sample) true 0 "core0.alu".toList = .ok none ∧ hasChild (after sample) false 0 "core0.fpu".toList = .ok true ∧
    getChild (after sample) true 4 ".".toList = .ok (some 1) ∧ getChild (after sample) true 0 ".".toList = .ok none ∧ Alive (after sample) 4 :=
  ⟨.step (c := 1) (by decide +kernel) (by decide +kernel) (.step (c := 4) (by decide +kernel) (by decide +kernel) (.here 4)),
    by decide +kernel, by decide +kernel, by decide +kernel, by decide +kernel, by decide +kernel, by decide +kernel, by unfold Alive; decide +kernel⟩

-- C153

/-- A search finds exactly the nodes that the pattern designates, level by level, by names, aliases or group and index. -/
theorem C153_search_exact_partial (ops : List Op) (hg : Grows ops) (all : Bool) (n : Nat) (L : List Str)
    (hL : ∀ p ∈ L, p ≠ [] ∧ OkName p) (ha : Alive (after ops) n) :
    ∃ xs, findChildren (after ops) all n (joinDots L) = .ok xs ∧ (xs.map Prod.fst).Nodup ∧
      ∀ x, x ∈ xs.map Prod.fst ↔ Reach (after ops) all (keysOf (after ops)) L n x := by
  have ht : Tidy init ops := tidy_of_no_destroy hg
  have hdot : ∀ p ∈ L, p ≠ [] ∧ '.' ∉ p := fun p hp => ⟨(hL p hp).1, fun h => (hL p hp).2 _ h (by decide)⟩
  obtain ⟨xs, h1, h2, -, h4⟩ := find_spec (all := all) (wf_after ops) (nok_after ht) (fun p hp => (hL p hp).2) ha
  unfold findChildren
  rw [names_join hdot]
  refine ⟨xs, h1, nodup_find (wf_after ops) (nok_after ht) (fun p hp => (hL p hp).2) (fun p hp => (hL p hp).1) ha h1, ?_⟩
  intro x
  constructor
  · intro hx
    obtain ⟨⟨y, reps⟩, hy, rfl⟩ := List.mem_map.1 hx
    exact h2 y reps hy
  · intro hx
    obtain ⟨reps, hr⟩ := h4 (full_after hg) x hx
    exact List.mem_map.2 ⟨_, hr, rfl⟩

/-- With destructions: nothing else than what the pattern designates, and everything that it designates by names and aliases. -/
theorem C153_search_tidy_partial (ops : List Op) (ht : Tidy init ops) (all : Bool) (n : Nat) (L : List Str)
    (hL : ∀ p ∈ L, p ≠ [] ∧ OkName p) (ha : Alive (after ops) n) :
    ∃ xs, findChildren (after ops) all n (joinDots L) = .ok xs ∧ (xs.map Prod.fst).Nodup ∧
      (∀ x, x ∈ xs.map Prod.fst → Reach (after ops) all (keysOf (after ops)) L n x) ∧
      (∀ x, Reach (after ops) all (identsOf (after ops)) L n x → x ∈ xs.map Prod.fst) := by
  have hdot : ∀ p ∈ L, p ≠ [] ∧ '.' ∉ p := fun p hp => ⟨(hL p hp).1, fun h => (hL p hp).2 _ h (by decide)⟩
  obtain ⟨xs, h1, h2, h3, -⟩ := find_spec (all := all) (wf_after ops) (nok_after ht) (fun p hp => (hL p hp).2) ha
  unfold findChildren
  rw [names_join hdot]
  refine ⟨xs, h1, nodup_find (wf_after ops) (nok_after ht) (fun p hp => (hL p hp).2) (fun p hp => (hL p hp).1) ha h1, ?_, ?_⟩
  · intro x hx
    obtain ⟨⟨y, reps⟩, hy, rfl⟩ := List.mem_map.1 hx
    exact h2 y reps hy
  · intro x hx
    obtain ⟨reps, hr⟩ := h3 x hx
    exact List.mem_map.2 ⟨_, hr, rfl⟩

/-- A leading dot searches from the parent. -/
theorem C153_leading_dot (ops : List Op) (all : Bool) (n p : Nat) (L : List Str) (hL0 : L ≠ []) (hL : ∀ p ∈ L, p ≠ [] ∧ '.' ∉ p)
    (h : parentOf (after ops) n = some p) :
    findChildren (after ops) all n ('.' :: joinDots L) = findChildren (after ops) all p (joinDots L) := by
  obtain ⟨nd, hn, hp⟩ := parentOf_alive h
  have hne : joinDots L ≠ [] := PTree.joinDots_ne hL0 (fun x hx => (hL x hx).1)
  have e : names ('.' :: joinDots L) = [] :: names (joinDots L) := by
    have h1 := PTree.nextName_dot (x := []) (y := joinDots L) (by simp)
    rw [if_neg hne] at h1
    rw [PTree.names_some (r := joinDots L) (by simp) (by rw [List.nil_append] at h1; rw [h1])]
    rw [List.nil_append] at h1; rw [h1]
  unfold findChildren
  rw [e, find, hn]
  dsimp only
  rw [if_pos rfl, hp]

example : Grows sample ∧ Alive (after sample) 0 ∧
    findChildren (after sample) false 0 "core*".toList = .ok [(1, ["0".toList]), (2, ["1".toList])] ∧
    findChildren (after sample) false 0 "core?.*".toList = .ok [(4, ["0".toList, "fpu".toList])] ∧
    findChildren (after sample) true 0 "core?.*".toList = .ok [(4, ["0".toList, "fpu".toList]), (3, ["0".toList, "l1".toList])] ∧
    findChildren (after sample) true 4 "..core1".toList = .ok [(2, [])] :=
  ⟨sample_grows, by unfold Alive; decide +kernel, by decide +kernel, by decide +kernel, by decide +kernel, by decide +kernel⟩

-- C154

/-- The replacements reported with a node: for every level of the pattern texts that, put in place of its wildcards, give the name
that matched.  Those of the first level come first, in order; the others follow, turned around once for every level above. -/
theorem C154_replacements_partial (ops : List Op) (ht : Tidy init ops) (all : Bool) (n : Nat) (L : List Str)
    (hL : ∀ p ∈ L, p ≠ [] ∧ OkName p) (xs : List (Nat × List Str)) (h : findChildren (after ops) all n (joinDots L) = .ok xs)
    (x : Nat) (reps : List Str) (hx : (x, reps) ∈ xs) :
    (∃ ks rs, Down (after ops) (keysOf (after ops)) n ks x ∧ FillPath L rs ks ∧ reps = scramble rs) ∧ reps.length = wilds L := by
  have hn := nok_after ht
  have hdot : ∀ p ∈ L, p ≠ [] ∧ '.' ∉ p := fun p hp => ⟨(hL p hp).1, fun h => (hL p hp).2 _ h (by decide)⟩
  unfold findChildren at h
  rw [names_join hdot] at h
  obtain ⟨ks, rs, h1, h2, h3⟩ := find_reps hn (fun p hp => (hL p hp).2) (fun p hp => (hL p hp).1) h hx (fun n nd k c h1 h2 => by
    obtain ⟨cd, hcd, -⟩ := hn.sound n nd k c h1 h2
    rw [hcd]; rfl)
  exact ⟨⟨ks, rs, h1, h2, h3⟩, by rw [h3, scramble_length, h2.length]⟩

/-- With at most one wildcard after the first level the replacements are in the order of the wildcards. -/
theorem C154_in_order_partial (ops : List Op) (ht : Tidy init ops) (all : Bool) (n : Nat) (p : Str) (L : List Str)
    (hL : ∀ q ∈ p :: L, q ≠ [] ∧ OkName q) (hw : wilds L ≤ 1) (xs : List (Nat × List Str))
    (h : findChildren (after ops) all n (joinDots (p :: L)) = .ok xs) (x : Nat) (reps : List Str) (hx : (x, reps) ∈ xs) :
    ∃ ks rs, Down (after ops) (keysOf (after ops)) n ks x ∧ FillPath (p :: L) rs ks ∧ reps = rs.flatten := by
  obtain ⟨⟨ks, rs, h1, h2, h3⟩, -⟩ := C154_replacements_partial ops ht all n (p :: L) hL xs h x reps hx
  refine ⟨ks, rs, h1, h2, ?_⟩
  cases h2 with
  | cons h4 h5 => rw [h3, scramble_tail (by rw [h5.length]; exact hw)]

example : findChildren (after sample) true 0 "?or*.l?".toList = .ok [(3, ["c".toList, "e0".toList, "1".toList])] ∧
    wilds ["?or*".toList, "l?".toList] = 3 ∧ wilds ["l?".toList] ≤ 1 ∧ (∀ q ∈ ["?or*".toList, "l?".toList], q ≠ [] ∧ OkName q) := by
  decide +kernel

/-- With two wildcards below the first level they come out in the wrong order: `top.a.b1x2` with the pattern `a.b?x?` gives 2, 1. -/
theorem C154_order_violated : ∃ ops, Grows ops ∧ findChildren (after ops) true 0 "a.b?x?".toList = .ok [(2, ["2".toList, "1".toList])] ∧
    nameOf (after ops) 2 = "b1x2".toList :=
  ⟨[.newRoot "top".toList, .new (some 0) "a".toList [] idxNone true, .new (some 1) "b1x2".toList [] idxNone true],
    by intro n; simp, by decide +kernel⟩

-- C155

/-- `locationMatchesPattern` says whether there is a path of names and aliases from the start to the node that the pattern matches. -/
theorem C155_location_matches_partial (ops : List Op) (n start : Nat) (L : List Str) (hL0 : L ≠ []) (hL : ∀ p ∈ L, p ≠ [] ∧ OkName p)
    (ha : Alive (after ops) n) :
    ∃ b, locationMatches (after ops) n (joinDots L) start = .ok b ∧
      (b = true ↔ ∃ ks, Down (after ops) (identsOf (after ops)) start ks n ∧ MatchPath L ks) := by
  have hdot : ∀ p ∈ L, p ≠ [] ∧ '.' ∉ p := fun p hp => ⟨(hL p hp).1, fun h => (hL p hp).2 _ h (by decide)⟩
  unfold locationMatches
  rw [if_neg (PTree.joinDots_ne hL0 (fun x hx => (hL x hx).1)), prevNames_join hL0 hdot]
  obtain ⟨b, h1, h2⟩ := matchUp_spec (s := after ops) (wf_after ops) (start := start) (toks := L.reverse)
    (fun t ht => hL t (List.mem_reverse.1 ht)) ha
  refine ⟨b, h1, h2.trans ?_⟩
  rw [List.reverse_reverse]
  exact ⟨fun h => h.2, fun h => ⟨by simpa using hL0, h⟩⟩

/-- Without groups it says whether a search with access to private nodes finds the node. -/
theorem C155_agrees_with_search_partial (ops : List Op) (hg : Grows ops) (hng : ∀ x, keysOf (after ops) x = identsOf (after ops) x)
    (n start : Nat) (L : List Str) (hL0 : L ≠ []) (hL : ∀ p ∈ L, p ≠ [] ∧ OkName p) (ha : Alive (after ops) n) (hs : Alive (after ops) start) :
    ∃ xs, findChildren (after ops) true start (joinDots L) = .ok xs ∧
      locationMatches (after ops) n (joinDots L) start = .ok ((xs.map Prod.fst).contains n) := by
  obtain ⟨b, h1, h2⟩ := C155_location_matches_partial ops n start L hL0 hL ha
  obtain ⟨xs, h3, -, h4⟩ := C153_search_exact_partial ops hg true start L hL hs
  refine ⟨xs, h3, ?_⟩
  rw [h1]
  congr 1
  have h5 := (h4 n).trans (reach_iff (fun p hp => (hL p hp).1))
  rw [show keysOf (after ops) = identsOf (after ops) from funext hng] at h5
  have h6 := h2.trans h5.symm
  rw [← List.contains_iff_mem] at h6
  exact Bool.eq_iff_iff.2 h6

/-- a tree without groups -/
def plainSample : List Op :=
  [.newRoot "top".toList, .new (some 0) "core0".toList [] idxNone true, .new (some 1) "l1".toList [] idxNone true]

example : Grows plainSample ∧ keysOf (after plainSample) 1 = identsOf (after plainSample) 1 ∧
    locationMatches (after plainSample) 2 "core*.l?".toList 0 = .ok true ∧
    findChildren (after plainSample) true 0 "core*.l?".toList = .ok [(2, ["0".toList, "1".toList])] ∧
    locationMatches (after plainSample) 2 "l?".toList 0 = .ok false ∧ locationMatches (after plainSample) 2 "l?".toList 1 = .ok true :=
  ⟨by intro n; simp [plainSample], by decide +kernel⟩

/-- The empty pattern matches the starting node only, as in a search. -/
theorem C155_empty_pattern (ops : List Op) (all : Bool) (n start : Nat) (hs : Alive (after ops) start) :
    findChildren (after ops) all start [] = .ok [(start, [])] ∧ locationMatches (after ops) n [] start = .ok (decide (n = start)) := by
  refine ⟨?_, ?_⟩
  · unfold findChildren
    rw [show names [] = [] by decide +kernel]
    simp [find]
  · unfold locationMatches
    rw [if_pos rfl]
    congr 1
    by_cases h : n = start
    · simp [h]
    · have h' : start ≠ n := fun e => h e.symm
      simp [h, h']

example : locationMatches (after plainSample) 1 [] 1 = .ok true ∧ locationMatches (after plainSample) 2 [] 1 = .ok false := by decide +kernel

/-- A node that a search finds by its group and index does not match; a leading dot, which in a search goes up, is ignored. -/
theorem C155_group_violated : ∃ ops, Grows ops ∧ findChildren (after ops) true 0 "g0".toList = .ok [(1, [])] ∧
    locationMatches (after ops) 1 "g0".toList 0 = .ok false ∧
    findChildren (after ops) true 0 ".x".toList = .ok [] ∧ locationMatches (after ops) 1 ".x".toList 0 = .ok true :=
  ⟨[.newRoot "top".toList, .new (some 0) "x".toList "g".toList 0 true], by intro n; simp, by decide +kernel⟩

-- C156

/-- the calls that make a node with the name: the node, or an exception -/
def nameAccepted (nm : Str) : Prop := (step init (.new none nm [] idxNone true)).2 = .node 0

instance (nm : Str) : Decidable (nameAccepted nm) := by unfold nameAccepted; infer_instance

/-- the check of the group adds that the name is not empty -/
theorem accepted_iff (nm : Str) : nameAccepted nm ↔ nm ≠ [] ∧ validName nm = true := by
  have hg : validGroup nm [] idxNone = true ↔ nm ≠ [] := by
    unfold validGroup
    have : reserved.contains ([] : Str) = false := by decide +kernel
    rw [this]
    have hb : ([] : Str) ≠ builtin := by decide
    rw [if_neg hb]
    cases nm with
    | nil => simp
    | cons c nm => simp [findUU, endsDigit, startsDigit]
  unfold nameAccepted
  show (finish init (.node 0) (construct init none (bare nm [] idxNone true false))).2 = .node 0 ↔ _
  unfold construct
  show (finish init (.node 0) (if !(validName nm && validGroup nm [] idxNone) then .error .throw else _)).2 = .node 0 ↔ _
  by_cases h : (!(validName nm && validGroup nm [] idxNone)) = true
  · rw [if_pos h]
    constructor
    · intro h; cases h
    · rintro ⟨h1, h2⟩; rw [h2, hg.2 h1] at h; cases h
  · rw [if_neg h]
    simp only [Bool.not_eq_true', Bool.not_eq_false, Bool.and_eq_true] at h
    exact ⟨fun _ => ⟨hg.1 h.2, h.1⟩, fun _ => rfl⟩

/-- A name that is accepted is not empty and not reserved, consists of letters, digits and underscores, does not begin with a digit
or two underscores; and a name like that without two underscores in a row is accepted. -/
theorem C156_names_partial (nm : Str) :
    (nameAccepted nm → nm ≠ [] ∧ nm ∉ reserved ∧ (∀ c ∈ nm, c.isAlphanum = true ∨ c = '_') ∧ (∀ c ∈ nm.head?, c.isDigit = false) ∧
      ¬ ∃ v, nm = '_' :: '_' :: v) ∧
    ((nm ≠ [] ∧ nm ∉ reserved ∧ (∀ c ∈ nm, c.isAlphanum = true ∨ c = '_') ∧ (∀ c ∈ nm.head?, c.isDigit = false) ∧
      ¬ ∃ u v, nm = u ++ '_' :: '_' :: v) → nameAccepted nm) := by
  rw [accepted_iff, validName_iff]
  constructor
  · rintro ⟨h1, h2, h3, h4, h5⟩
    refine ⟨h1, h2, h5, h4, ?_⟩
    rintro ⟨v, rfl⟩
    simp [uuRefused, findUU] at h3
  · rintro ⟨h1, h2, h3, h4, h5⟩
    refine ⟨h1, h2, ?_, h4, h3⟩
    unfold uuRefused
    rw [findUU_none.2 h5]

example : nameAccepted "core_0".toList ∧ ¬ nameAccepted "0core".toList ∧ ¬ nameAccepted "a.b".toList ∧ ¬ nameAccepted "name".toList ∧
    ¬ nameAccepted "__x".toList ∧ ¬ nameAccepted [] := by decide +kernel

/-- Two underscores in a row are documented to be forbidden; they are refused only at the beginning and before the last character. -/
theorem C156_underscores_violated : nameAccepted "ab__cd".toList ∧ nameAccepted "ab__".toList ∧ ¬ nameAccepted "ab__c".toList := by
  decide +kernel

-- C157

/-- Without access to private nodes `getChild` finds what it finds with it, if it is on the same level of privacy as the node asked. -/
theorem C157_lookup_partial (ops : List Op) (ht : Tidy init ops) (n x : Nat) (path : Str) (ha : Alive (after ops) n) :
    getChild (after ops) false n path = .ok (some x) ↔
      getChild (after ops) true n path = .ok (some x) ∧ levelOf (after ops) x = levelOf (after ops) n :=
  getChild_false (wf_after ops) (nok_after ht) ha

/-- For a descendant this means: no node on the way down is private to its parent. -/
theorem C157_same_level_iff (ops : List Op) (n x : Nat) (h : Above (parentOf (after ops)) n x) :
    levelOf (after ops) x = levelOf (after ops) n ↔
      ∀ y, (y = x ∨ Above (parentOf (after ops)) y x) → Above (parentOf (after ops)) n y →
        ¬ ∃ p, parentOf (after ops) y = some p ∧ levelOf (after ops) y ≠ levelOf (after ops) p :=
  level_eq_iff (wf_after ops) (lvl_after ops) h

/-- What has been made private stays private to its parents, now and later: its ancestors find neither it nor anything below it
without access to private nodes, whatever else is done. -/
theorem C157_stays_private_partial (o1 o2 : List Op) (c n x : Nat) (path : Str) (ht : Tidy init (o1 ++ .makePrivate c :: o2))
    (hd : (after o1).dead = false) (hc : Alive (after o1) c) (hab : Above (parentOf (after (o1 ++ .makePrivate c :: o2))) n c)
    (hx : x = c ∨ Above (parentOf (after (o1 ++ .makePrivate c :: o2))) c x) :
    getChild (after (o1 ++ .makePrivate c :: o2)) false n path ≠ .ok (some x) := by
  intro h
  have hw := wf_after (o1 ++ .makePrivate c :: o2)
  have hl := lvl_after (o1 ++ .makePrivate c :: o2)
  obtain ⟨nd, hn⟩ := hw.above_alive hab
  have h2 := ((C157_lookup_partial _ ht n x path (by unfold Alive; rw [hn]; rfl)).1 h).2
  have hp := privInv_after (o2 := o2) hd hc
  have hnx : Above (parentOf (after (o1 ++ .makePrivate c :: o2))) n x := by
    rcases hx with rfl | hx
    · exact hab
    · exact hab.trans hx
  refine (level_eq_iff hw hl hnx).1 h2 c ?_ hab ?_
  · rcases hx with rfl | hx
    · exact .inl rfl
    · exact .inr hx
  · have : ∃ p, parentOf (after (o1 ++ .makePrivate c :: o2)) c = some p := by
      cases hab with
      | parent h => exact ⟨_, h⟩
      | up h _ => exact ⟨_, h⟩
    obtain ⟨p, hpp⟩ := this
    obtain ⟨cd, hcd, hcp⟩ := parentOf_alive hpp
    obtain ⟨pd, hpd, -⟩ := hw.parent_alive hcd hcp
    have := (hp.2 cd hcd).2 p pd hcp hpd
    exact ⟨p, hpp, by rw [levelOf_some hcd, levelOf_some hpd]; omega⟩

/-- The same for a search. -/
theorem C157_not_searched_partial (o1 o2 : List Op) (c n x : Nat) (L : List Str) (hL : ∀ p ∈ L, p ≠ [] ∧ OkName p)
    (ht : Tidy init (o1 ++ .makePrivate c :: o2)) (hd : (after o1).dead = false) (hc : Alive (after o1) c)
    (hab : Above (parentOf (after (o1 ++ .makePrivate c :: o2))) n c)
    (hx : x = c ∨ Above (parentOf (after (o1 ++ .makePrivate c :: o2))) c x) :
    ∃ xs, findChildren (after (o1 ++ .makePrivate c :: o2)) false n (joinDots L) = .ok xs ∧ x ∉ xs.map Prod.fst := by
  have hw := wf_after (o1 ++ .makePrivate c :: o2)
  have hl := lvl_after (o1 ++ .makePrivate c :: o2)
  obtain ⟨nd, hn⟩ := hw.above_alive hab
  obtain ⟨xs, h1, -, h2, -⟩ := C153_search_tidy_partial _ ht false n L hL (by unfold Alive; rw [hn]; rfl)
  refine ⟨xs, h1, fun hm => ?_⟩
  have hr := h2 x hm
  have hlev : ∀ {M : List Str} {m y}, (∀ p ∈ M, p ≠ []) →
      Reach (after (o1 ++ .makePrivate c :: o2)) false (keysOf (after (o1 ++ .makePrivate c :: o2))) M m y →
      levelOf (after (o1 ++ .makePrivate c :: o2)) y = levelOf (after (o1 ++ .makePrivate c :: o2)) m := by
    intro M m y hM h
    induction h with
    | here => rfl
    | up => exact absurd rfl (hM [] List.mem_cons_self)
    | down _ _ _ _ h5 _ ih => rw [ih (fun p hp => hM p (List.mem_cons_of_mem _ hp)), h5.resolve_left (by simp)]
  have h3 := hlev (fun p hp => (hL p hp).1) hr
  have hp := privInv_after (o2 := o2) hd hc
  have hnx : Above (parentOf (after (o1 ++ .makePrivate c :: o2))) n x := by
    rcases hx with rfl | hx
    · exact hab
    · exact hab.trans hx
  refine (level_eq_iff hw hl hnx).1 h3 c ?_ hab ?_
  · rcases hx with rfl | hx
    · exact .inl rfl
    · exact .inr hx
  · have : ∃ p, parentOf (after (o1 ++ .makePrivate c :: o2)) c = some p := by
      cases hab with
      | parent h => exact ⟨_, h⟩
      | up h _ => exact ⟨_, h⟩
    obtain ⟨p, hpp⟩ := this
    obtain ⟨cd, hcd, hcp⟩ := parentOf_alive hpp
    obtain ⟨pd, hpd, -⟩ := hw.parent_alive hcd hcp
    have := (hp.2 cd hcd).2 p pd hcp hpd
    exact ⟨p, hpp, by rw [levelOf_some hcd, levelOf_some hpd]; omega⟩

/-- `getChildren` gives the children that are on the same level, in their order. -/
theorem C157_get_children (ops : List Op) (n : Nat) :
    getChildren (after ops) n = (childrenOf (after ops) n).filter (fun c => levelOf (after ops) c == levelOf (after ops) n) := by
  have hw := wf_after ops
  unfold getChildren childrenOf
  cases hn : (after ops).node n with
  | none => rfl
  | some nd =>
    dsimp only
    refine List.filter_congr fun c hc => ?_
    obtain ⟨cd, hcd, -⟩ := hw.child_alive hn hc
    rw [hcd, levelOf_some hcd, levelOf_some hn]

example : Tidy init sample ∧ getChildren (after sample) 1 = [4] ∧ getChild (after sample) false 0 "core0.fpu".toList = .ok (some 4) ∧
    getChild (after sample) false 0 "core0.l1".toList = .ok none ∧ getChild (after sample) true 0 "core0.l1".toList = .ok (some 3) ∧
    Above (parentOf (after sample)) 0 3 ∧
    sample = sample.take 5 ++ .makePrivate 3 :: sample.drop 6 ∧ (after (sample.take 5)).dead = false ∧ Alive (after (sample.take 5)) 3 :=
  ⟨sample_tidy, by decide +kernel, by decide +kernel, by decide +kernel, by decide +kernel,
    .up (p := 1) (by decide +kernel) (.parent (by decide +kernel)), by decide +kernel, by decide +kernel, by unfold Alive; decide +kernel⟩

/-- Levels are only numbers: by a path through the parent a node sees the private child of another node if its own level is the same;
and from a private node the way up to the public parent is not found. -/
theorem C157_levels_violated : ∃ ops, Grows ops ∧ levelOf (after ops) 0 ≠ levelOf (after ops) 1 ∧
    getChild (after ops) false 1 ".b.y".toList = .ok (some 3) ∧ levelOf (after ops) 3 ≠ levelOf (after ops) 2 ∧
    getChild (after ops) true 1 ".".toList = .ok (some 0) ∧ getChild (after ops) false 1 ".".toList = .ok none :=
  ⟨[.newRoot "top".toList, .new (some 0) "a".toList [] idxNone true, .new (some 0) "b".toList [] idxNone true,
    .new (some 2) "y".toList [] idxNone true, .makePrivate 1, .makePrivate 3], by intro n; simp, by decide +kernel⟩

-- C158

/-- In a tree without groups: if a path of names leads to a node that can be seen, and the next name of the path leads no further, then
the path up to there is the answer. -/
theorem C158_deepest_path_partial (ops : List Op) (ht : Tidy init ops) (hng : ∀ n nd, (after ops).node n = some nd → nd.group = [])
    (n m : Nat) (L1 L2 : List Str) (k : Str) (ha : Alive (after ops) n)
    (h : Down (after ops) (fun c => [nameOf (after ops) c]) n L1 m) (h1 : ∀ a ∈ L1, a ≠ []) (hlev : levelOf (after ops) m = levelOf (after ops) n)
    (hk : k ≠ [] ∧ OkName k) (hpl : ∀ c ∈ k, isWild c = false) (h2 : ∀ a ∈ L2, a ≠ [] ∧ '.' ∉ a)
    (hno : ∀ c, parentOf (after ops) c = some m → k ∈ identsOf (after ops) c → levelOf (after ops) c ≠ levelOf (after ops) m) :
    deepestPath (after ops) n (joinDots (L1 ++ k :: L2)) = .ok (joinDots L1) := by
  have hv := valid_after ops
  obtain ⟨d, hd⟩ := deep_path (L2 := L2) (wf_after ops) (nok_after ht) (lvl_after ops) hv hng ha h h1 hlev hk.1 hk.2 hpl hno
  unfold deepestPath
  rw [names_join, hd]
  intro a hm
  rcases List.mem_append.1 hm with hm | hm
  · exact (down_names_idents h h1).valid hv a hm
  · rcases List.mem_cons.1 hm with rfl | hm
    · exact ⟨hk.1, fun h => hk.2 _ h (by decide)⟩
    · exact h2 a hm

example : Down (after plainSample) (fun c => [nameOf (after plainSample) c]) 0 ["core0".toList] 1 ∧
    deepestPath (after plainSample) 0 "core0.l2.tags".toList = .ok "core0".toList ∧ childrenOf (after plainSample) 1 = [2] ∧
    "l2".toList ∉ identsOf (after plainSample) 2 ∧ levelOf (after plainSample) 1 = levelOf (after plainSample) 0 :=
  ⟨.step (c := 1) (by decide +kernel) (by decide +kernel) (.here 1), by decide +kernel⟩

/-- If the whole path exists, then its last name comes out twice. -/
theorem C158_full_match_violated : deepestPath (after plainSample) 0 "core0".toList = .ok "core0.core0".toList ∧
    deepestPath (after plainSample) 0 "core0.l1".toList = .ok "core0.l1.l1".toList ∧
    getChild (after plainSample) true 0 "core0.l1".toList = .ok (some 2) ∧
    getChild (after plainSample) true 0 "core0.l1.l1".toList = .ok none := by decide +kernel

/-- A leading dot at a node without a parent is a null pointer. -/
theorem C158_root_violated : deepestPath (after plainSample) 0 ".x".toList = .error .ub := by decide +kernel

-- C159

/-- `getRoot` is the top of the way up, `getLevel` the number of ancestors, and `isDescendantOf` says whether the other node is on the
way up, at most so many steps away. -/
theorem C159_way_up (ops : List Op) (n : Nat) (ha : Alive (after ops) n) :
    (parentOf (after ops) (getRoot (after ops) n) = none ∧
      (getRoot (after ops) n = n ∨ Above (parentOf (after ops)) (getRoot (after ops) n) n)) ∧
    Lv (parentOf (after ops)) n (getLevel (after ops) n) ∧
    ∀ a depth, isDescendantOf (after ops) n a depth = true ↔
      ∃ k, Steps (parentOf (after ops)) n a k ∧ ∀ m, depth = some m → k ≤ m :=
  ⟨getRoot_spec (wf_after ops) ha, getLevel_spec (wf_after ops) ha, fun _ d => isDescendantOf_spec (wf_after ops) ha d⟩

example : Alive (after sample) 3 ∧ getRoot (after sample) 3 = 0 ∧ getLevel (after sample) 3 = 2 ∧ getRoot (after sample) 5 = 5 ∧
    isDescendantOf (after sample) 3 0 none = true ∧ isDescendantOf (after sample) 3 0 (some 1) = false ∧
    isDescendantOf (after sample) 3 0 (some 2) = true ∧ isDescendantOf (after sample) 3 2 none = false := by
  unfold Alive; decide +kernel

end Sparta.TNode
