import Verif.PTree.Lemmas7
/-!
Properties of the virtual parameter tree (C124-C130): any number of trees, any history of calls that ends at any point.
`events os t` is what happened to tree `t`, in terms of paths only (Spec.lean).
-/
namespace Sparta.PTree
open Sparta.Strings (Str)

abbrev after (os : List Op) : State := (runOps State.step State.init os).1
abbrev results (os : List Op) : List Res := (runOps State.step State.init os).2
abbrev events (os : List Op) (t : Nat) : List Ev := histOf (fun _ => []) os (results os) t

/-- the value (and its origin) that a lookup shows -/
def valueOf : Res → Option (Str × Str)
  | .node (some x) => x.2.2
  | _ => none

/-- `w` is what the last write whose path matches `L` wrote, if there is one -/
def Latest (evs : List Ev) (L : List Str) (w : Option (Str × Str)) : Prop :=
  (∃ a K v o q b, evs = a ++ .write K v o q :: b ∧ MatchPath K L ∧
    (∀ K' v' o' q', Ev.write K' v' o' q' ∈ b → ¬ MatchPath K' L) ∧ w = some (v, o)) ∨
  ((∀ K v o q, Ev.write K v o q ∈ evs → ¬ MatchPath K L) ∧ w = none)

def s (x : String) : Str := x.toList

/-- a history used in the examples -/
def demo : List Op :=
  [.set 0 (s "top.core0.size") (s "1") true (s "a.yaml"), .set 0 (s "top.*.size") (s "2") false (s "b.yaml"),
   .set 1 (s "top.core1.size") (s "3") true [], .set 0 (s "top.core1.mode") (s "x") true [], .tryGet 0 (s "top.core0.size") true]

theorem demo_legal : Legal State.init demo := by decide +kernel

/-! ### C124: patterns and paths -/

/-- C124: a name given to `set` matches exactly the texts of its pattern: `*` any text, `?` at most one character, `+` at
least one, everything else itself. -/
theorem C124_pattern {p : Str} (h : OkName p) (x : Str) : patMatches p x = true ↔ Glob p x := patMatches_iff h x

example : OkName (s "core*") ∧ patMatches (s "core*") (s "core12") = true ∧ patMatches (s "core?") (s "core12") = false := by
  decide +kernel

/-- C124: a name without wildcards matches itself only. -/
theorem C124_plain {p : Str} (h : OkName p) (h2 : PlainName p) (x : Str) : patMatches p x = true ↔ x = p := by
  rw [patMatches_iff h]
  refine glob_plain (fun c hc => ?_)
  have := h2.2 c hc
  simp at this
  exact ⟨this.2.2.2.2.1, this.2.2.2.2.2.1, this.2.2.2.2.2.2.1⟩

example : OkName (s "core1") ∧ PlainName (s "core1") := by decide

/-- C124: the names of a path are what lies between the dots. -/
theorem C124_names {L : List Str} (h : ∀ x ∈ L, x ≠ [] ∧ '.' ∉ x) : names (joinDots L) = L := names_join h

example : ∀ x ∈ [s "top", s "core*", s "size"], x ≠ [] ∧ '.' ∉ x := by decide

/-- C124: in a name the characters `| ^ $ { } \` keep their meaning in regular expressions: such a name does not match
itself as a text. -/
theorem C124_special_violated : ¬ ∀ p : Str, PlainName p → createSearchRegexPattern p = p → patMatches p p = true := by
  intro h
  exact absurd (h (s "a|b") (by decide) (by decide +kernel)) (by decide +kernel)

/-! ### C125: lookups -/

theorem latest_of {n : Node} {evs : List Ev} (h : Good n evs) (p : List Str) : Latest evs p (look p n) := by
  rw [h.look p]
  cases hl : lastOf (valOf p) evs with
  | none =>
    refine Or.inr ⟨fun K v o q hm => ?_, rfl⟩
    have := lastOf_none.1 hl _ hm
    have hok : OkP K := h.ok _ hm
    rw [← strip_match hok]
    intro hs
    simp [valOf, hs] at this
  | some w =>
    obtain ⟨a, e, b, rfl, he, hb⟩ := lastOf_some hl
    refine Or.inl ?_
    cases e with
    | write K v o q =>
      have hok : OkP K := h.ok (.write K v o q) (by simp)
      simp only [valOf] at he
      split at he
      · rename_i hs
        obtain rfl := Option.some.inj he
        refine ⟨a, K, v, o, q, b, rfl, (strip_match hok).1 hs, ?_, rfl⟩
        intro K' v' o' q' hm
        have := hb _ hm
        have hok' : OkP K' := h.ok (.write K' v' o' q') (by simp [hm])
        rw [← strip_match hok']
        intro hs'
        simp [valOf, hs'] at this
      · cases he
    | touch => cases he
    | look => cases he
    | unreq => cases he

theorem get_value {n n' : Node} {path : Str} {o : Option Ref} (h : tryGet path true n = some (n', o)) :
    valueOf (.node (o.map (view n'))) = look (names path) n := by
  rcases tryGet_cases h with ⟨h1, rfl, rfl⟩ | ⟨_, _, h3, h4⟩
  · rw [h1]; rfl
  · cases o with
    | none => exact ((h4 rfl).1 rfl).symm
    | some r =>
      obtain ⟨L, m, _, e2, _, e4, _⟩ := h3 r rfl
      rw [← e4 rfl]
      simp [valueOf, view, e2]

theorem step_tryGet {st : State} {t : Nat} {path : Str} (hc : Concrete (names path)) :
    ∃ x, (st.step (.tryGet t path true)).2 = .node x ∧ valueOf (.node x) = look (names path) (st t) := by
  obtain ⟨⟨n', o⟩, hg⟩ := Option.ne_none_iff_exists'.1 (tryGet_ok hc true (st t))
  refine ⟨o.map (view n'), ?_, get_value hg⟩
  simp [State.step, hg, State.put]

/-- C125: `get` of a path shows the value of the last `set` whose pattern matches the path, be it made on this tree or
on a tree merged into it; nothing if there was none. -/
theorem C125_get_latest (os : List Op) (hl : Legal State.init os) (t : Nat) (L : List Str) (hL : ∀ x ∈ L, PlainName x) :
    ∃ x, ((after os).step (.tryGet t (joinDots L) true)).2 = .node x ∧ Latest (events os t) L (valueOf (.node x)) := by
  obtain ⟨hc, e⟩ := plain_concrete hL
  obtain ⟨x, h1, h2⟩ := step_tryGet (st := after os) (t := t) hc
  refine ⟨x, h1, ?_⟩
  rw [h2, e]
  exact latest_of (reach hl t) L

example : valueOf ((after demo).step (.tryGet 0 (joinDots [s "top", s "core0", s "size"]) true)).2 = some (s "2", s "b.yaml") := by
  decide +kernel

/-- C125: the node that `get` returns is one whose own path matches. -/
theorem C125_get_node (os : List Op) (hl : Legal State.init os) (t : Nat) (L : List Str) (hL : ∀ x ∈ L, PlainName x)
    (leaf : Bool) (r : Ref) (path : Str) (v : Option (Str × Str))
    (h : ((after os).step (.tryGet t (joinDots L) leaf)).2 = .node (some (r, path, v))) :
    ∃ K, path = joinDots K ∧ MatchPath K L := by
  obtain ⟨hc, e⟩ := plain_concrete hL
  have hg := reach hl t
  change Good (after os t) _ at hg
  obtain ⟨⟨n', o⟩, ht⟩ := Option.ne_none_iff_exists'.1 (tryGet_ok hc leaf (after os t))
  simp only [State.step, ht, State.put, Option.map_some, Res.node.injEq] at h
  have hgood := good_tryGet hg ht
  cases o with
  | none => cases h
  | some r' =>
    have h' := Option.some.inj h
    simp only [view] at h'
    have hp : (getPath r' n').getD [] = path := congrArg (fun z => z.2.1) h'
    clear h h'
    rcases tryGet_cases ht with ⟨h1, rfl, h3⟩ | ⟨_, _, h3, _⟩
    · obtain rfl := Option.some.inj h3
      rw [e] at h1
      subst h1
      exact ⟨[], hp.symm.trans rfl, trivial⟩
    · obtain ⟨K, m, k1, _, k3, _⟩ := h3 r' rfl
      obtain ⟨_, _, hat⟩ := namesAt_at k1
      refine ⟨K, ?_, ?_⟩
      · rw [← hp]; simp [getPath, k1]
      · rw [← strip_match (fun x hx => (hgood.wf K _ hat x hx).1), ← e]; exact k3

example : ((after demo).step (.tryGet 0 (joinDots [s "top", s "core0", s "size"]) true)).2 =
    .node (some ([0, 1, 0], s "top.*.size", some (s "2", s "b.yaml"))) := by decide +kernel

/-- C125: looking up does not change what is found, in any tree. -/
theorem C125_get_stable (os : List Op) (hl : Legal State.init os) (t t' : Nat) (path : Str) (leaf : Bool) (L : List Str)
    (hL : ∀ x ∈ L, PlainName x) :
    valueOf (((after os).step (.tryGet t path leaf)).1.step (.tryGet t' (joinDots L) true)).2 =
      valueOf ((after os).step (.tryGet t' (joinDots L) true)).2 := by
  obtain ⟨hc, e⟩ := plain_concrete hL
  have hg := reach hl t
  obtain ⟨x, h1, h2⟩ := step_tryGet (st := after os) (t := t') hc
  obtain ⟨y, h3, h4⟩ := step_tryGet (st := ((after os).step (.tryGet t path leaf)).1) (t := t') hc
  rw [h1, h3, h2, h4]
  simp only [State.step]
  cases ht : PTree.tryGet path leaf (after os t) with
  | none => rfl
  | some q =>
    obtain ⟨n', o⟩ := q
    simp only [State.put, Option.map_some]
    by_cases he : t' = t
    · subst he
      rw [upd_same]
      rcases tryGet_cases ht with ⟨_, rfl, _⟩ | ⟨_, hi, _⟩
      · rfl
      · exact inc_first value_children (fun _ _ => rfl) hi _
    · rw [upd_other _ _ he]

/-- C125: `exists` of an inner node depends on its depth: the node `a` is found, the node `a.b` is not. -/
theorem C125_exists_violated :
    ∃ os : List Op, Legal State.init os ∧
      (∃ x, ((after os).step (.tryGet 0 (s "a") true)).2 = .node (some x)) ∧
      ((after os).step (.tryGet 0 (s "a.b") true)).2 = .node none ∧
      (∃ x, ((after os).step (.tryGet 0 (s "a.b") false)).2 = .node (some x)) :=
  ⟨[.set 0 (s "a.b.c") (s "1") true []], by decide +kernel, ⟨([0], s "a", none), by decide +kernel⟩, by decide +kernel,
    ⟨([0, 0], s "a.b", none), by decide +kernel⟩⟩

/-! ### C126: merging and copying -/

/-- C126: after a merge every path has the value it has in the other tree, and where that has none, the value it had; the
other trees are as before. -/
theorem C126_merge (os : List Op) (hl : Legal State.init os) (t o : Nat) (hd : ((after os).step (.merge t o)).2 = .done)
    (L : List Str) (hL : ∀ x ∈ L, PlainName x) :
    valueOf (((after os).step (.merge t o)).1.step (.tryGet t (joinDots L) true)).2 =
      (valueOf ((after os).step (.tryGet o (joinDots L) true)).2).or
        (valueOf ((after os).step (.tryGet t (joinDots L) true)).2) ∧
    ∀ t', t' ≠ t → ((after os).step (.merge t o)).1 t' = after os t' := by
  obtain ⟨hc, e⟩ := plain_concrete hL
  have ht := reach hl t
  have ho := reach hl o
  obtain ⟨x, h1, h2⟩ := step_tryGet (st := after os) (t := t) hc
  obtain ⟨y, h3, h4⟩ := step_tryGet (st := after os) (t := o) hc
  obtain ⟨z, h5, h6⟩ := step_tryGet (st := ((after os).step (.merge t o)).1) (t := t) hc
  have hm : (append (after os o) (after os t)).2 = true := by
    simp only [State.step] at hd
    cases hb : (PTree.merge (after os t) (after os o)).2 with
    | true => exact hb
    | false => rw [hb] at hd; cases hd
  refine ⟨?_, fun t' h => upd_other _ _ h⟩
  rw [h1, h3, h5, h2, h4, h6]
  have : ((after os).step (.merge t o)).1 t = (append (after os o) (after os t)).1 := upd_same _ _ _
  rw [this]
  exact append_look _ _ ho.wf ht.wf hm _

example : ((after demo).step (.merge 0 1)).2 = .done ∧
    valueOf (((after demo).step (.merge 0 1)).1.step (.tryGet 0 (s "top.core1.size") true)).2 = some (s "3", []) ∧
    valueOf (((after demo).step (.merge 0 1)).1.step (.tryGet 0 (s "top.core0.size") true)).2 = some (s "2", s "b.yaml") := by
  decide +kernel

/-- C126: a copy has the values of the tree copied, and so has the target of an assignment. -/
theorem C126_copy (os : List Op) (hl : Legal State.init os) (t o : Nat) (op : Op)
    (hop : op = .copy t o ∨ (op = .assign t o ∧ t ≠ o)) (hd : ((after os).step op).2 = .done)
    (L : List Str) (hL : ∀ x ∈ L, PlainName x) :
    valueOf (((after os).step op).1.step (.tryGet t (joinDots L) true)).2 =
      valueOf ((after os).step (.tryGet o (joinDots L) true)).2 := by
  obtain ⟨hc, e⟩ := plain_concrete hL
  have ho := reach hl o
  obtain ⟨y, h3, h4⟩ := step_tryGet (st := after os) (t := o) hc
  obtain ⟨z, h5, h6⟩ := step_tryGet (st := ((after os).step op).1) (t := t) hc
  rw [h3, h5, h4, h6]
  have key : (append (after os o) newRoot).2 = true ∧ ((after os).step op).1 t = (append (after os o) newRoot).1 := by
    rcases hop with rfl | ⟨rfl, hne⟩
    · simp only [State.step, PTree.copy] at hd ⊢
      by_cases hm : (PTree.merge newRoot (after os o)).2 = true
      · rw [if_pos hm]
        exact ⟨hm, upd_same _ _ _⟩
      · rw [if_neg hm] at hd; cases hd
    · simp only [State.step] at hd ⊢
      rw [upd_same, upd_other _ _ (Ne.symm hne)] at hd ⊢
      by_cases hm : (PTree.merge newRoot (after os o)).2 = true
      · exact ⟨hm, by rw [upd_same]; rfl⟩
      · rw [if_neg hm] at hd; cases hd
  rw [key.2, append_look _ _ ho.wf good_root.wf key.1]
  have : look (names (joinDots L)) newRoot = none := by cases names (joinDots L) <;> rfl
  rw [this, Option.or_none]

example : ((after demo).step (.copy 2 0)).2 = .done ∧ ((after demo).step (.assign 2 0)).2 = .done := by decide +kernel

/-- the path of a node was written to, or lies on the way to a path that was written to or created -/
theorem named_of {n z : Node} {evs : List Ev} {L : List Str} (h : Good n evs) (hz : At n L z) (h0 : L ≠ []) :
    (∃ L' q, Ev.touch L' q ∈ evs ∧ L <+: L') ∨ ∃ L' v o q, Ev.write L' v o q ∈ evs ∧ L <+: L' := by
  have hok := h.nodes L z hz
  cases hv : z.value with
  | none => exact (hok.nov hv).resolve_left h0
  | some w =>
    obtain ⟨a, b, q, e, _⟩ := hok.val w hv
    exact Or.inr ⟨L, w.1, w.2, q, by rw [e]; simp, List.prefix_refl L⟩

theorem written_of {n : Node} {evs : List Ev} {L : List Str} (h : Good n evs) (hz : HasVal n L) :
    ∃ v o q, Ev.write L v o q ∈ evs := by
  obtain ⟨c, hc, hv⟩ := hz
  obtain ⟨w, hw⟩ := Option.isSome_iff_exists.1 hv
  obtain ⟨a, b, q, e, _⟩ := (h.nodes L c hc).val w hw
  exact ⟨w.1, w.2, q, by rw [e]; simp⟩

/-- C126: a merge fails only when one of the trees has a value at a path and the other tree names something below that
path. -/
theorem C126_merge_fails (os : List Op) (hl : Legal State.init os) (t o : Nat)
    (hd : ((after os).step (.merge t o)).2 ≠ .done) :
    ∃ K x, (∃ v g q, Ev.write K v g q ∈ events os t ∨ Ev.write K v g q ∈ events os o) ∧
      ((∃ L' q, Ev.touch L' q ∈ events os o ∧ K ++ [x] <+: L') ∨
        ∃ L' v g q, Ev.write L' v g q ∈ events os o ∧ K ++ [x] <+: L') := by
  have ht := reach hl t
  have ho := reach hl o
  have hm : (append (after os o) (after os t)).2 = false := by
    simp only [State.step] at hd
    cases hb : (PTree.merge (after os t) (after os o)).2 with
    | false => exact hb
    | true => rw [hb] at hd; exact absurd rfl hd
  obtain ⟨K, x, hor, z, hz⟩ := append_fail _ _ ho.wf ht.wf hm
  refine ⟨K, x, ?_, named_of ho hz (by simp)⟩
  rcases hor with h | h
  · obtain ⟨v, g, q, h⟩ := written_of ht h
    exact ⟨v, g, q, Or.inl h⟩
  · obtain ⟨v, g, q, h⟩ := written_of ho h
    exact ⟨v, g, q, Or.inr h⟩

example : ((after [.set 0 (s "a") (s "1") true [], .set 1 (s "a.b") (s "2") true []]).step (.merge 0 1)).2 ≠ .done := by
  decide +kernel

/-- C126: a tree in which an inner node got a value after its children can be neither copied nor merged, even into an
empty tree. -/
theorem C126_copy_violated :
    ∃ os : List Op, Legal State.init os ∧ ((after os).step (.copy 1 0)).2 = .error ∧
      ((after os).step (.merge 1 0)).2 = .error :=
  ⟨[.set 0 (s "a.b") (s "1") true [], .set 0 (s "a") (s "2") true []], by decide +kernel, by decide +kernel, by decide +kernel⟩

/-- C126: a failing merge leaves the part of the other tree that it had got to. -/
theorem C126_failed_merge_violated :
    ∃ os : List Op, Legal State.init os ∧ ((after os).step (.merge 0 1)).2 = .error ∧
      valueOf ((after os).step (.tryGet 0 (s "x") true)).2 = none ∧
      valueOf (((after os).step (.merge 0 1)).1.step (.tryGet 0 (s "x") true)).2 = some (s "3", []) :=
  ⟨[.set 0 (s "a") (s "1") true [], .set 1 (s "x") (s "3") true [], .set 1 (s "a.b") (s "2") true []], by decide +kernel,
    by decide +kernel, by decide +kernel, by decide +kernel⟩

/-- C126: assigning a tree to itself loses everything. -/
theorem C126_self_assign_violated :
    ∃ os : List Op, Legal State.init os ∧ ((after os).step (.assign 0 0)).2 = .done ∧
      valueOf ((after os).step (.tryGet 0 (s "a") true)).2 = some (s "1", []) ∧
      valueOf (((after os).step (.assign 0 0)).1.step (.tryGet 0 (s "a") true)).2 = none :=
  ⟨[.set 0 (s "a") (s "1") true []], by decide +kernel, by decide +kernel, by decide +kernel, by decide +kernel⟩

/-! ### C127: unread values -/

/-- C127: every value reported as unread was written to the path reported, and no lookup since then matches that path. -/
theorem C127_reported (os : List Op) (hl : Legal State.init os) (t : Nat) (l : List (Ref × Str × Option (Str × Str)))
    (h : ((after os).step (.unread t)).2 = .nodes l) (x : Ref × Str × Option (Str × Str)) (hx : x ∈ l) :
    ∃ K v o q a b, x.2.1 = joinDots K ∧ x.2.2 = some (v, o) ∧ events os t = a ++ .write K v o q :: b ∧
      (K ≠ [] → ∀ p, Ev.look p ∈ b → ¬ MatchPath K p) := by
  have hg := reach hl t
  change Good (after os t) (events os t) at hg
  obtain rfl := Res.nodes.inj h
  obtain ⟨r, hr, rfl⟩ := List.mem_map.1 hx
  obtain ⟨c, hc, hv, h0⟩ := (mem_unread (after os t) r).1 hr
  obtain ⟨K, hK⟩ := nodeAt_names hc
  obtain ⟨c', hc', hat⟩ := namesAt_at hK
  rw [hc] at hc'
  obtain rfl := Option.some.inj hc'
  obtain ⟨w, hw⟩ := Option.isSome_iff_exists.1 hv
  obtain ⟨a, b, q, e, h2⟩ := (hg.nodes K c hat).val w hw
  refine ⟨K, w.1, w.2, q, a, b, ?_, ?_, e, ?_⟩
  · simp [view, getPath, hK]
  · simp [view, hc, hw]
  · intro hK0 p hp
    rw [← strip_match (fun x hx => (hg.wf K c hat x hx).1)]
    exact h2 hK0 h0 p hp

/-- C127: a path that was written to and that no lookup matches is reported, with a value written to it. -/
theorem C127_unread_reported_partial (os : List Op) (hl : Legal State.init os) (t : Nat) (K : List Str) (v o : Str) (q : Bool)
    (hw : Ev.write K v o q ∈ events os t) (hu : ∀ p, Ev.look p ∈ events os t → ¬ MatchPath K p)
    (l : List (Ref × Str × Option (Str × Str))) (h : ((after os).step (.unread t)).2 = .nodes l) :
    ∃ r v' o' q', (r, joinDots K, some (v', o')) ∈ l ∧ Ev.write K v' o' q' ∈ events os t := by
  have hg := reach hl t
  change Good (after os t) (events os t) at hg
  obtain rfl := Res.nodes.inj h
  obtain ⟨c, hat, hv⟩ := hg.vals K v o q hw
  have hok := hg.nodes K c hat
  obtain ⟨w, hw'⟩ := Option.isSome_iff_exists.1 hv
  obtain ⟨a, b, q', e, _⟩ := hok.val w hw'
  obtain ⟨r, h1, h2⟩ := at_nodeAt hat
  refine ⟨r, w.1, w.2, q', ?_, by rw [e]; simp⟩
  refine List.mem_map.2 ⟨r, (mem_unread _ r).2 ⟨c, h2, hv, ?_⟩, ?_⟩
  · rcases Nat.eq_zero_or_pos c.reads with h0 | h0
    · exact h0
    · obtain ⟨p, hp, hs⟩ := hok.rd h0
      exact absurd ((strip_match (fun x hx => (hg.wf K c hat x hx).1)).1 hs) (hu p hp)
  · simp [view, getPath, h1, h2, hw']

/-- C127: no node is reported twice. -/
theorem C127_nodup (os : List Op) (t : Nat) (l : List (Ref × Str × Option (Str × Str)))
    (h : ((after os).step (.unread t)).2 = .nodes l) : (l.map (·.1)).Nodup := by
  obtain rfl := Res.nodes.inj h
  rw [List.map_map]
  have : (fun x : Ref × Str × Option (Str × Str) => x.1) ∘ view (after os t) = id := rfl
  rw [this, List.map_id]
  exact unread_nodup _

example : ((after demo).step (.unread 0)).2 = .nodes [([0, 2, 0], s "top.core1.mode", some (s "x", []))] := by
  decide +kernel

/-- C127: `isRead` is true only of paths for which a value was written and looked up. -/
theorem C127_isRead_sound (os : List Op) (hl : Legal State.init os) (t : Nat) (L : List Str) (hL : ∀ x ∈ L, PlainName x)
    (h : ((after os).step (.isRead t (joinDots L))).2 = .bool true) :
    ∃ K v o q p, Ev.write K v o q ∈ events os t ∧ MatchPath K L ∧ Ev.look p ∈ events os t ∧ MatchPath K p := by
  have hg := reach hl t
  change Good (after os t) (events os t) at hg
  obtain ⟨hc, e⟩ := plain_concrete hL
  simp only [State.step, isRead_eq hc, State.put, Option.map_some, Res.bool.injEq] at h
  obtain ⟨u, hu⟩ := Option.isSome_iff_exists.1 h
  obtain ⟨K, c, hat, hs, hr⟩ := first_some hu
  have hcond : c.value.isSome = true ∧ 0 < c.reads := by
    unfold readOf at hr
    split at hr
    · rename_i h; simpa using h
    · cases hr
  have hok := hg.nodes K c hat
  obtain ⟨w, hw⟩ := Option.isSome_iff_exists.1 hcond.1
  obtain ⟨a, b, q, e', _⟩ := hok.val w hw
  obtain ⟨p, hp, hsp⟩ := hok.rd hcond.2
  have hokK : OkP K := fun x hx => (hg.wf K c hat x hx).1
  refine ⟨K, w.1, w.2, q, p, by rw [e']; simp, ?_, hp, (strip_match hokK).1 hsp⟩
  rw [← strip_match hokK, ← e]; exact hs

/-- the node found has been counted -/
theorem inc_counted {q K : List Str} {n n' c : Node} (hi : Inc true q n n') (hat : At n K c) (hst : strip K q = some [])
    (hv : c.value.isSome = true) : ∃ c', At n' K c' ∧ c'.value.isSome = true ∧ 0 < c'.reads := by
  induction hat generalizing q n' with
  | here n =>
    obtain rfl : q = [] := Option.some.inj hst
    obtain ⟨k, rfl, hk⟩ := hi
    have := hk (Or.inl hv)
    exact ⟨_, .here _, hv, by show 0 < n.reads + k; omega⟩
  | @child n c d K hc hd ih =>
    cases q with
    | nil => cases hst
    | cons b q =>
      simp only [strip] at hst
      split at hst
      · rename_i hm
        obtain ⟨cs, rfl, hf2⟩ := inc_cons.1 hi
        obtain ⟨i, hi'⟩ := List.getElem?_of_mem hc
        obtain ⟨c2, hc2, hr⟩ := hf2.get' hi'
        have hn := incC_name hr
        unfold IncC at hr
        rw [if_pos hm] at hr
        obtain ⟨d', h1, h2, h3⟩ := ih hr hst hv
        refine ⟨d', ?_, h2, h3⟩
        rw [← hn]
        exact .child (List.mem_of_getElem? hc2) h1
      · cases hst

/-- C127: after a lookup that showed a value, `isRead` of the path is true. -/
theorem C127_isRead_complete_partial (os : List Op) (t : Nat) (L : List Str)
    (hL : ∀ x ∈ L, PlainName x) (h0 : L ≠ [])
    (h : valueOf ((after os).step (.tryGet t (joinDots L) true)).2 ≠ none) :
    (((after os).step (.tryGet t (joinDots L) true)).1.step (.isRead t (joinDots L))).2 = .bool true := by
  obtain ⟨hc, e⟩ := plain_concrete hL
  obtain ⟨⟨n', o⟩, ht⟩ := Option.ne_none_iff_exists'.1 (tryGet_ok hc true (after os t))
  obtain ⟨x, h1, h2⟩ := step_tryGet (st := after os) (t := t) hc
  rw [h1, h2] at h
  have hs : ((after os).step (.tryGet t (joinDots L) true)).1 t = n' := by
    simp [State.step, ht, State.put, upd_same]
  generalize ((after os).step (.tryGet t (joinDots L) true)).1 = st at hs ⊢
  simp only [State.step, isRead_eq hc, State.put, Option.map_some, Res.bool.injEq, hs]
  rcases tryGet_cases ht with ⟨h3, _⟩ | ⟨_, hi, _⟩
  · rw [e] at h3; exact absurd h3 h0
  · obtain ⟨w, hw⟩ := Option.ne_none_iff_exists'.1 h
    obtain ⟨K, c, hat, hst, hv⟩ := first_some hw
    obtain ⟨c', hat', hv', hr'⟩ := inc_counted hi hat hst (by rw [hv]; rfl)
    have := first_isSome (g := readOf) hat' hst (by simp [readOf, hv', hr'])
    cases hf : first readOf (names (joinDots L)) n' with
    | none => exact absurd hf this
    | some u => rfl

example : valueOf ((after demo).step (.tryGet 0 (joinDots [s "top", s "core1", s "mode"]) true)).2 ≠ none ∧
    ((after demo).step (.isRead 0 (s "top.core1.mode"))).2 = .bool false ∧
    ((after demo).step (.isRead 0 (s "top.core0.size"))).2 = .bool true := by decide +kernel

/-- C127: a value written over one that was read is not reported although nothing has read it. -/
theorem C127_rewritten_violated :
    ∃ os : List Op, Legal State.init os ∧
      events os 0 = [.write [s "a"] (s "1") [] true, .look [s "a"], .write [s "a"] (s "2") [] true] ∧
      ((after os).step (.unread 0)).2 = .nodes [] :=
  ⟨[.set 0 (s "a") (s "1") true [], .tryGet 0 (s "a") true, .set 0 (s "a") (s "2") true []], by decide +kernel,
    by decide +kernel, by decide +kernel⟩

/-- C127: the value of the root is reported although `get("")` has shown it. -/
theorem C127_root_violated :
    ∃ os : List Op, Legal State.init os ∧ results os = [.bool true, .node (some ([], [], some (s "1", [])))] ∧
      ((after os).step (.unread 0)).2 = .nodes [([], [], some (s "1", []))] :=
  ⟨[.set 0 [] (s "1") true [], .tryGet 0 [] true], by decide +kernel, by decide +kernel, by decide +kernel⟩

/-! ### C128: requirements -/

/-- nothing was created at or below what `L` designates other than by writing to it, and nothing was unrequired -/
def Undisturbed (evs : List Ev) (L : List Str) : Prop :=
  (∀ K v o q, Ev.write K v o q ∈ evs → (∃ K', K' <+: K ∧ MatchPath K' L) → MatchPath K L) ∧
  (∀ K q, Ev.touch K q ∈ evs → ¬ ∃ K', K' <+: K ∧ MatchPath K' L) ∧ ∀ K, Ev.unreq K ∉ evs

/-- C128: if the last `set` that matches a path said "required", the path is required. -/
theorem C128_required_partial (os : List Op) (hl : Legal State.init os) (t : Nat) (L : List Str) (hL : ∀ x ∈ L, PlainName x)
    (h0 : L ≠ []) (hu : Undisturbed (events os t) L) (a b : List Ev) (K : List Str) (v o : Str)
    (he : events os t = a ++ .write K v o true :: b) (hm : MatchPath K L)
    (hb : ∀ K' v' o' q', Ev.write K' v' o' q' ∈ b → ¬ MatchPath K' L) :
    ((after os).step (.isRequired t (joinDots L))).2 = .bool true := by
  have hg := reach hl t
  change Good (after os t) (events os t) at hg
  obtain ⟨hc, e⟩ := plain_concrete hL
  have hreq := hg.req L h0 ?_ ?_
  · simp [State.step, isRequired_eq hc, e, hreq, State.put]
  · intro ev hev
    cases ev with
    | write K' v' o' q' =>
      have hok : OkP K' := hg.ok _ hev
      intro hcov
      rw [strip_match hok]
      exact hu.1 K' v' o' q' hev ((covers_match hok).1 hcov)
    | touch K' q' =>
      have hok : OkP K' := hg.ok _ hev
      show covers K' L = false
      cases hcov : covers K' L with
      | false => rfl
      | true => exact absurd ((covers_match hok).1 hcov) (hu.2.1 K' q' hev)
    | look => trivial
    | unreq K' => exact hu.2.2 K' hev
  · have hokK : OkP K := hg.ok (.write K v o true) (by rw [he]; simp)
    have hb' : lastOf (reqEv L) b = none := by
      rw [lastOf_none]
      intro ev hev
      cases ev with
      | write K' v' o' q' =>
        have hok : OkP K' := hg.ok (.write K' v' o' q') (by rw [he]; simp [hev])
        have := hb K' v' o' q' hev
        rw [← strip_match hok] at this
        simp [reqEv, this]
      | _ => rfl
    rw [he, show a ++ Ev.write K v o true :: b = a ++ ([Ev.write K v o true] ++ b) from rfl, lastOf_append, lastOf_append,
      lastOf_single, hb']
    simp [reqEv, (strip_match hokK).2 hm]

theorem demo_events : events demo 0 = [] ++ .write [s "top", s "core0", s "size"] (s "1") (s "a.yaml") true ::
    [.write [s "top", s "*", s "size"] (s "2") (s "b.yaml") false, .write [s "top", s "core1", s "mode"] (s "x") [] true,
     .look [s "top", s "core0", s "size"]] := by decide +kernel

example : Undisturbed (events demo 0) [s "top", s "core1", s "mode"] := by
  have ok : ∀ e ∈ events demo 0, match e with
      | .write K _ _ _ => (∀ x ∈ K, OkName x) ∧ (covers K [s "top", s "core1", s "mode"] = true →
          strip K [s "top", s "core1", s "mode"] = some [])
      | .touch _ _ => False
      | .look _ => True
      | .unreq _ => False := by
    rw [demo_events]
    intro e he
    simp only [List.nil_append, List.mem_cons, List.not_mem_nil, or_false] at he
    rcases he with rfl | rfl | rfl | rfl
    · exact (by decide +kernel)
    · exact (by decide +kernel)
    · exact (by decide +kernel)
    · trivial
  refine ⟨fun K v o q h hc => ?_, fun K q h => (ok _ h).elim, fun K h => ok _ h⟩
  obtain ⟨h1, h2⟩ := ok _ h
  exact (strip_match h1).1 (h2 ((covers_match h1).2 hc))

example : ((after demo).step (.isRequired 0 (s "top.core1.mode"))).2 = .bool true ∧
    ((after demo).step (.isRequired 0 (s "top.core0.size"))).2 = .bool false := by decide +kernel

/-- C128: a path that some `set` matches and that no `set` or `create` with "required" concerns is not required. -/
theorem C128_not_required (os : List Op) (hl : Legal State.init os) (t : Nat) (L : List Str) (hL : ∀ x ∈ L, PlainName x)
    (hw : ∃ K v o q, Ev.write K v o q ∈ events os t ∧ MatchPath K L)
    (h1 : ∀ K v o, Ev.write K v o true ∈ events os t → ¬ MatchPath K L)
    (h2 : ∀ K, Ev.touch K true ∈ events os t → ¬ ∃ K', K' <+: K ∧ MatchPath K' L) :
    ((after os).step (.isRequired t (joinDots L))).2 = .bool false := by
  have hg := reach hl t
  change Good (after os t) (events os t) at hg
  obtain ⟨hc, e⟩ := plain_concrete hL
  obtain ⟨K, v, o, q, hm, hmat⟩ := hw
  have hokK : OkP K := hg.ok _ hm
  obtain ⟨c, hat, _⟩ := hg.vals K v o q hm
  have hne := first_isSome (g := reqOf) (p := L) hat ((strip_match hokK).2 hmat) (by simp [reqOf])
  obtain ⟨w, hw⟩ := Option.ne_none_iff_exists'.1 hne
  have hf : w = false := by
    obtain ⟨K', d, hat', hs, hd⟩ := first_some hw
    have hok' : OkP K' := fun x hx => (hg.wf K' d hat' x hx).1
    cases w with
    | false => rfl
    | true =>
      have hpos : 0 < d.required := by simpa [reqOf] using hd
      rcases (hg.nodes K' d hat').rq hpos with ⟨_, v', o', h⟩ | ⟨K2, h, hp⟩
      · exact absurd ((strip_match hok').1 hs) (h1 K' v' o' h)
      · exact absurd ⟨K', hp, (strip_match hok').1 hs⟩ (h2 K2 h)
  subst hf
  simp [State.step, isRequired_eq hc, e, hw, State.put]

example : ((after [.set 0 (s "a.*") (s "1") false []]).step (.isRequired 0 (s "a.b"))).2 = .bool false := by decide +kernel

/-- C128: a path just unrequired is not required. -/
theorem C128_unrequire (os : List Op) (t : Nat) (L : List Str) (hL : ∀ x ∈ L, PlainName x)
    (h : ((after os).step (.unrequire t (joinDots L))).2 = .bool true) :
    (((after os).step (.unrequire t (joinDots L))).1.step (.isRequired t (joinDots L))).2 = .bool false := by
  obtain ⟨hc, e⟩ := plain_concrete hL
  obtain ⟨⟨n', o⟩, ht⟩ := Option.ne_none_iff_exists'.1 (tryGet_ok hc false (after os t))
  cases o with
  | none => simp [State.step, PTree.unrequire, ht, State.put] at h
  | some r =>
    have hs : ((after os).step (.unrequire t (joinDots L))).1 t = modifyAt unrequireN r n' := by
      simp [State.step, PTree.unrequire, ht, State.put, upd_same]
    generalize ((after os).step (.unrequire t (joinDots L))).1 = st at hs ⊢
    have hun : ∀ m : Node, reqOf (unrequireN m) = some false := by intro m; cases m; simp [unrequireN, reqOf]
    have hf : first reqOf (names (joinDots L)) (modifyAt unrequireN r n') = some false := by
      rcases tryGet_cases ht with ⟨h3, rfl, h4⟩ | ⟨_, _, h3, _⟩
      · obtain rfl := Option.some.inj h4
        rw [h3]
        exact hun _
      · obtain ⟨K, m, _, _, _, _, h5⟩ := h3 r rfl
        rw [h5 rfl _ unrequireN_name]
        exact hun m
    simp [State.step, isRequired_eq hc, hs, hf, State.put]

example : ((after demo).step (.unrequire 0 (joinDots [s "top", s "core1", s "mode"]))).2 = .bool true := by decide +kernel

theorem nodeAt_append (r r' : Ref) (n : Node) : nodeAt (r ++ r') n = (nodeAt r n).bind (nodeAt r') := by
  induction r generalizing n with
  | nil => rfl
  | cons i r ih =>
    cases hc : n.children[i]? with
    | none => simp [nodeAt, hc]
    | some c => simp [nodeAt, hc, ih]

theorem unrequireL_get (cs : List Node) (i : Nat) : (unrequireL cs)[i]? = cs[i]?.map unrequireN := by
  induction cs generalizing i with
  | nil => rfl
  | cons c cs ih =>
    cases i with
    | zero => rfl
    | succ i => simp [unrequireL, ih]

theorem unrequireN_nodes (r : Ref) (n c : Node) (h : nodeAt r (unrequireN n) = some c) : c.required = 0 := by
  induction r generalizing n with
  | nil =>
    obtain rfl := Option.some.inj h
    cases n; rfl
  | cons i r ih =>
    have e : (unrequireN n).children = unrequireL n.children := by cases n; rfl
    rw [nodeAt, e, unrequireL_get] at h
    cases hc : n.children[i]? with
    | none => simp [hc] at h
    | some d =>
      simp only [hc, Option.map_some] at h
      exact ih d h

/-- C128: a path that a `set` has matched can be unrequired: there is a node for it such that this node and all nodes
below have no requirement left. -/
theorem C128_unrequire_found (os : List Op) (hl : Legal State.init os) (t : Nat) (L : List Str) (hL : ∀ x ∈ L, PlainName x)
    (hw : ∃ K v o q, Ev.write K v o q ∈ events os t ∧ MatchPath K L) :
    ((after os).step (.unrequire t (joinDots L))).2 = .bool true ∧
      ∃ r K, namesAt r (((after os).step (.unrequire t (joinDots L))).1 t) = some K ∧ MatchPath K L ∧
        ∀ r' c, nodeAt (r ++ r') (((after os).step (.unrequire t (joinDots L))).1 t) = some c → c.required = 0 := by
  have hg := reach hl t
  change Good (after os t) (events os t) at hg
  obtain ⟨hc, e⟩ := plain_concrete hL
  obtain ⟨⟨n', o⟩, ht⟩ := Option.ne_none_iff_exists'.1 (tryGet_ok hc false (after os t))
  have hgood := good_tryGet hg ht
  cases o with
  | none =>
    exfalso
    obtain ⟨K, v, o, q, hm, hmat⟩ := hw
    have hokK : OkP K := hg.ok _ hm
    obtain ⟨c, hat, _⟩ := hg.vals K v o q hm
    have hne := first_isSome (g := reqOf) (p := L) hat ((strip_match hokK).2 hmat) (by simp [reqOf])
    rcases tryGet_cases ht with ⟨_, _, h4⟩ | ⟨_, _, _, h4⟩
    · cases h4
    · rw [← e] at hne
      exact hne ((h4 rfl).2 rfl)
  | some r =>
    have hs : ((after os).step (.unrequire t (joinDots L))).1 t = modifyAt unrequireN r n' := by
      simp [State.step, PTree.unrequire, ht, State.put, upd_same]
    refine ⟨by simp [State.step, PTree.unrequire, ht, State.put], r, ?_⟩
    rw [hs]
    have below : ∀ r' c, nodeAt (r ++ r') (modifyAt unrequireN r n') = some c → c.required = 0 := by
      intro r' c hr
      rw [nodeAt_append, nodeAt_modifyAt] at hr
      cases hn : nodeAt r n' with
      | none => simp [hn] at hr
      | some m =>
        simp only [hn, Option.map_some, Option.bind_some] at hr
        exact unrequireN_nodes r' m c hr
    rcases tryGet_cases ht with ⟨h3, rfl, h4⟩ | ⟨_, _, h3, _⟩
    · obtain rfl := Option.some.inj h4
      rw [e] at h3
      subst h3
      exact ⟨[], rfl, trivial, below⟩
    · obtain ⟨K, m, k1, _, k3, _⟩ := h3 r rfl
      obtain ⟨_, _, hat⟩ := namesAt_at k1
      refine ⟨K, by rw [namesAt_modifyAt unrequireN_name]; exact k1, ?_, below⟩
      rw [← strip_match (fun x hx => (hgood.wf K _ hat x hx).1), ← e]
      exact k3

example : ((after demo).step (.unrequire 0 (joinDots [s "top", s "core0", s "size"]))).2 = .bool true := by decide +kernel

/-- C128: unrequiring a subtree leaves a path below it required when an older pattern covers it. -/
theorem C128_unrequire_below_violated :
    ∃ os : List Op, Legal State.init os ∧ results os = [.bool true, .bool true, .bool true] ∧
      ((after os).step (.isRequired 0 (s "a.x"))).2 = .bool true :=
  ⟨[.set 0 (s "*.x") (s "1") true [], .set 0 (s "a.y") (s "2") true [], .unrequire 0 (s "a")], by decide +kernel,
    by decide +kernel, by decide +kernel⟩

/-- C128: a `set` that says "not required" does not take back the requirement of an earlier one. -/
theorem C128_not_cleared_violated :
    ∃ os : List Op, Legal State.init os ∧
      events os 0 = [.write [s "a"] (s "1") [] true, .write [s "a"] (s "2") [] false] ∧
      ((after os).step (.isRequired 0 (s "a"))).2 = .bool true :=
  ⟨[.set 0 (s "a") (s "1") true [], .set 0 (s "a") (s "2") false []], by decide +kernel, by decide +kernel, by decide +kernel⟩

/-- C128: a `set` that fails for the two dots in its path changes whether another path is required. -/
theorem C128_failed_set_violated :
    ∃ os : List Op, Legal State.init os ∧ ((after os).step (.isRequired 0 (s "a"))).2 = .bool true ∧
      ((after os).step (.set 0 (s "a..b") (s "2") false [])).2 = .bool false ∧
      (((after os).step (.set 0 (s "a..b") (s "2") false [])).1.step (.isRequired 0 (s "a"))).2 = .bool false :=
  ⟨[.set 0 (s "*") (s "1") true []], by decide +kernel, by decide +kernel, by decide +kernel, by decide +kernel⟩

/-! ### C129: set -/

/-- C129: `set` is refused only for a path below one that an earlier `set` has written to; then nothing changes. -/
theorem C129_refused (os : List Op) (hl : Legal State.init os) (t : Nat) (path v : Str) (req : Bool) (org : Str)
    (hp : ∀ c ∈ path, c ∈ badChars → c = '.') (h : ((after os).step (.set t path v req org)).2 = .error) :
    ((after os).step (.set t path v req org)).1 = after os ∧
      ∃ K x v' o' q', Ev.write K v' o' q' ∈ events os t ∧ K ++ [x] <+: names path := by
  have hg := reach hl t
  change Good (after os t) (events os t) at hg
  simp only [State.step, PTree.set] at h ⊢
  cases hc : PTree.create false (names path) (after os t) with
  | none =>
    refine ⟨rfl, ?_⟩
    obtain ⟨K, x, hK, hx⟩ := create_none hc hg.wf (names_okP hp)
    obtain ⟨v', o', q', hw⟩ := written_of hg hK
    exact ⟨K, x, v', o', q', hw, hx.trans (List.takeWhile_prefix _)⟩
  | some q =>
    exfalso
    obtain ⟨n', o⟩ := q
    rw [hc] at h
    cases o <;> cases h

example : ((after [.set 0 (s "a") (s "1") true []]).step (.set 0 (s "a.b") (s "2") true [])).2 = .error := by decide +kernel

theorem create_some_names {req : Bool} {L : List Str} {n n' : Node} {o : Option Ref} (h : create req L n = some (n', o))
    (hw : WF n) (hL : OkP L) : o = none ↔ [] ∈ L := by
  induction L generalizing n n' o with
  | nil =>
    obtain ⟨_, rfl⟩ := Prod.mk.inj (Option.some.inj h)
    simp
  | cons a L ih =>
    rcases create_cases h hw (hL a (by simp)) with ⟨ha, _, h2⟩ | ⟨ha, pre, c, post, c', o', e, en, hn, hc, rfl, ho⟩ |
      ⟨ha, _, c', o', hc, rfl, ho⟩
    · simp [ha, h2]
    · rw [ho, Option.map_eq_none_iff, ih hc (hw.child (by rw [e]; simp)) (fun x hx => hL x (by simp [hx]))]
      simp [Ne.symm ha]
    · rw [ho, Option.map_eq_none_iff, ih hc (wf_added a req) (fun x hx => hL x (by simp [hx]))]
      simp [Ne.symm ha]

/-- C129: a `set` that is not refused returns false exactly for paths with an empty name. -/
theorem C129_false_iff (os : List Op) (hl : Legal State.init os) (t : Nat) (path v : Str) (req : Bool) (org : Str)
    (hp : ∀ c ∈ path, c ∈ badChars → c = '.') (b : Bool) (h : ((after os).step (.set t path v req org)).2 = .bool b) :
    b = false ↔ [] ∈ names path := by
  have hg := reach hl t
  change Good (after os t) (events os t) at hg
  simp only [State.step, PTree.set] at h
  cases hc : PTree.create false (names path) (after os t) with
  | none => rw [hc] at h; cases h
  | some q =>
    obtain ⟨n', o⟩ := q
    rw [← create_some_names hc hg.wf (names_okP hp)]
    rw [hc] at h
    cases o with
    | none =>
      obtain rfl := Res.bool.inj h
      simp
    | some r =>
      obtain rfl := Res.bool.inj h
      simp

example : ((after []).step (.set 0 (s "a..b") (s "2") true [])).2 = .bool false ∧ [] ∈ names (s "a..b") := by decide +kernel

/-- C129: what was set is what a lookup of any path that the pattern matches shows next; other paths are as before. -/
theorem C129_set_get (os : List Op) (hl : Legal State.init os) (t : Nat) (path v : Str) (req : Bool) (org : Str)
    (hp : ∀ c ∈ path, c ∈ badChars → c = '.') (h : ((after os).step (.set t path v req org)).2 = .bool true)
    (L : List Str) (hL : ∀ x ∈ L, PlainName x) :
    (MatchPath (names path) L →
      valueOf (((after os).step (.set t path v req org)).1.step (.tryGet t (joinDots L) true)).2 = some (v, org)) ∧
    (¬ MatchPath (names path) L →
      valueOf (((after os).step (.set t path v req org)).1.step (.tryGet t (joinDots L) true)).2 =
        valueOf ((after os).step (.tryGet t (joinDots L) true)).2) := by
  have hg := reach hl t
  change Good (after os t) (events os t) at hg
  obtain ⟨hc, e⟩ := plain_concrete hL
  obtain ⟨x, h1, h2⟩ := step_tryGet (st := after os) (t := t) hc
  obtain ⟨y, h3, h4⟩ := step_tryGet (st := ((after os).step (.set t path v req org)).1) (t := t) hc
  rw [h1, h3, h2, h4, e]
  simp only [State.step, PTree.set] at h ⊢
  cases hcr : PTree.create false (names path) (after os t) with
  | none => rw [hcr] at h; cases h
  | some q =>
    obtain ⟨n', o⟩ := q
    rw [hcr] at h
    cases o with
    | none => cases h
    | some r =>
      have hgood := good_write (v := v) (org := org) (req := req) hg (names_okP hp) hcr
      simp only [State.put, Option.map_some, upd_same]
      rw [hgood.look L, hg.look L, lastOf_append, lastOf_single, ← strip_match (names_okP hp)]
      refine ⟨fun hm => by simp [valOf, hm], fun hm => by simp [valOf, hm]⟩

example : ((after demo).step (.set 0 (s "top.core?.size") (s "9") true [])).2 = .bool true := by decide +kernel

theorem joinDots_append {K L : List Str} (hK : K ≠ []) (hL : L ≠ []) :
    joinDots (K ++ L) = joinDots K ++ ['.'] ++ joinDots L := by
  match K, hK with
  | [a], _ =>
    match L, hL with
    | b :: L, _ => simp [joinDots]
  | a :: b :: K, _ =>
    have := joinDots_append (K := b :: K) (by simp) hL
    rw [List.cons_append, List.cons_append, joinDots]
    rw [List.cons_append] at this
    rw [this, joinDots]
    simp

/-- C129: `set` on a node with a path below it is `set` on the tree with the joined path. -/
theorem C129_node_set (os : List Op) (hl : Legal State.init os) (t : Nat) (r : Ref) (path : Str)
    (hr : getPath r (after os t) = some path) (L : List Str) (h1 : ∀ x ∈ L, x ≠ [] ∧ '.' ∉ x) (v : Str) (req : Bool) (org : Str) :
    nodeSet r (joinDots L) v req org (after os t) = set (joinDots (names path ++ L)) v req org (after os t) := by
  have hg := reach hl t
  change Good (after os t) (events os t) at hg
  unfold getPath at hr
  rw [Option.map_eq_some_iff] at hr
  obtain ⟨K, hK, rfl⟩ := hr
  obtain ⟨c, _, hat⟩ := namesAt_at hK
  have hok : ∀ x ∈ K, x ≠ [] ∧ '.' ∉ x := fun x hx => ⟨(hg.wf K c hat x hx).2, okName_noDot (hg.wf K c hat x hx).1⟩
  rw [names_join hok]
  unfold nodeSet getPath
  rw [hK]
  simp only [Option.map_some]
  congr 1
  by_cases hK0 : K = []
  · subst hK0; simp [joinDots]
  · by_cases hL0 : L = []
    · subst hL0; simp [joinDots]
    · rw [if_pos ⟨joinDots_ne hK0 (fun x hx => (hok x hx).1), joinDots_ne hL0 (fun x hx => (h1 x hx).1)⟩,
        joinDots_append hK0 hL0]

example : getPath [0, 1] (after demo 0) = some (s "top.*") := by decide +kernel

/-! ### C130: chained `operator[]` -/

/-- C130: where `node[a][b]...` reaches a value, it is the value that `get("a.b...")` shows. -/
theorem C130_index_sound_partial (os : List Op) (t : Nat) (L : List Str) (hL : ∀ x ∈ L, PlainName x) (r : Ref)
    (h : indexAll L (after os t) = some r) (w : Str × Str) (hw : (nodeAt r (after os t)).bind (·.value) = some w) :
    valueOf ((after os).step (.tryGet t (joinDots L) true)).2 = some w := by
  obtain ⟨hc, e⟩ := plain_concrete hL
  obtain ⟨x, h1, h2⟩ := step_tryGet (st := after os) (t := t) hc
  rw [h1, h2, e]
  generalize after os t = n at h hw
  clear h1 h2 hc e
  have loop : ∀ (nm : Str) (l : List Node) (i : Nat), childLoop nm l = some i →
      ∃ nw c ol, l = nw ++ c :: ol ∧ i = ol.length ∧ patMatches c.name nm = true ∧ ∀ d ∈ nw, ¬ patMatches d.name nm = true := by
    intro nm l
    induction l with
    | nil => intro i hi; cases hi
    | cons c l ih =>
      intro i hi
      unfold childLoop at hi
      split at hi
      · rename_i hm
        obtain rfl := Option.some.inj hi
        exact ⟨[], c, l, rfl, rfl, hm, by simp⟩
      · rename_i hm
        obtain ⟨nw, d, ol, rfl, h1, h2, h3⟩ := ih i hi
        refine ⟨c :: nw, d, ol, rfl, h1, h2, ?_⟩
        intro y hy
        rcases List.mem_cons.1 hy with rfl | hy
        · exact hm
        · exact h3 y hy
  induction L generalizing n r with
  | nil =>
    obtain rfl := Option.some.inj h
    exact hw
  | cons nm L ih =>
    unfold indexAll at h
    cases hi : index n nm with
    | none => rw [hi] at h; cases h
    | some i =>
      rw [hi] at h
      dsimp only at h
      cases hci : n.children[i]? with
      | none => rw [hci] at h; cases h
      | some c =>
        rw [hci] at h
        dsimp only at h
        rw [Option.map_eq_some_iff] at h
        obtain ⟨r', hr', rfl⟩ := h
        rw [nodeAt, hci] at hw
        have hv := ih (fun x hx => hL x (by simp [hx])) r' c hr' hw
        unfold index at hi
        split at hi
        · cases hi
        obtain ⟨nw, d, ol, e, rfl, hm, hn⟩ := loop nm _ i hi
        have e' : n.children = ol.reverse ++ d :: nw.reverse := by
          rw [← List.reverse_reverse (as := n.children), e]; simp
        have hd : n.children[ol.length]? = some d := by
          rw [e']
          have := getElem?_mid ol.reverse nw.reverse d
          rwa [List.length_reverse] at this
        rw [hd] at hci
        obtain rfl := Option.some.inj hci
        show first Node.value (nm :: L) n = some w
        have hv' : first Node.value L d = some w := hv
        rw [first_cons, e', firstL_mid, firstL_none (by simpa using hn), if_pos hm, hv']
        rfl

example : indexAll [s "top", s "core1", s "mode"] (after demo 0) = some [0, 2, 0] := by decide +kernel

/-- C130: `node[a][b]...` fails for a path that `get` finds, because it takes the newest child at every level. -/
theorem C130_index_violated :
    ∃ os : List Op, Legal State.init os ∧
      valueOf ((after os).step (.tryGet 0 (s "foo.bar") true)).2 = some (s "1", []) ∧
      indexAll [s "foo", s "bar"] (after os 0) = none :=
  ⟨[.set 0 (s "foo.bar") (s "1") true [], .set 0 (s "*.baz") (s "2") true []], by decide +kernel, by decide +kernel,
    by decide +kernel⟩

end Sparta.PTree
