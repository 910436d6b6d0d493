import Verif.ExPort.Model
/-!
C254: exported ports.
-/
namespace Sparta.ExPort

/-- a node of the name, at or below the node, with no node of the name above it -/
inductive Found (nm : String) : Tree → Tree → Prop
  | here {t : Tree} : t.name = nm → Found nm t t
  | deeper {t c n : Tree} : t.name ≠ nm → c ∈ t.children → Found nm c n → Found nm t n

mutual
theorem search_iff (nm : String) : ∀ (t n : Tree), n ∈ search nm t ↔ Found nm t n
  | .node i m k c, n => by
    simp only [search]
    by_cases h : m = nm
    · rw [if_pos h, List.mem_singleton]
      constructor
      · rintro rfl
        exact .here h
      · intro f
        cases f with
        | here _ => rfl
        | deeper h' _ _ => exact absurd h h'
    · rw [if_neg h, searchAll_iff nm c n]
      constructor
      · rintro ⟨d, hd, f⟩
        exact .deeper h hd f
      · intro f
        cases f with
        | here h' => exact absurd h' h
        | deeper _ hd f => exact ⟨_, hd, f⟩
theorem searchAll_iff (nm : String) : ∀ (ts : List Tree) (n : Tree), n ∈ searchAll nm ts ↔ ∃ c ∈ ts, Found nm c n
  | [], n => by simp [searchAll]
  | t :: ts, n => by
    simp only [searchAll]
    rw [List.mem_append, search_iff nm t n, searchAll_iff nm ts n]
    simp
end

/-- **C254** The search finds the nodes of the name that have no node of the name above them. -/
theorem C254_search (nm : String) (t n : Tree) : n ∈ search nm t ↔ Found nm t n := search_iff nm t n

theorem pick_two {t u : Tree} {p : Nat} (h : (pick [t, u] none).bind id = some p) :
    t.kind ≠ .other ∧ u.kind ≠ .other ∧ ((u.kind = .port ∧ p = u.id) ∨ (u.kind = .exported ∧ t.kind = .port ∧ p = t.id)) := by
  unfold pick pick pick at h
  cases ht : t.kind <;> cases hu : u.kind <;> simp [ht, hu] at h <;> simp [h]

/-- **C254** What an exported port stands for is a port of the internal name found below the search path, and not the exported port itself. -/
theorem C254_sound (self : Nat) (nm : String) (root : Tree) (hself : ∀ n, Found nm root n → n.id = self → n.kind = .exported)
    (p : Nat) (h : resolve self nm root = some p) : p ≠ self ∧ ∃ n, Found nm root n ∧ n.id = p ∧ n.name = nm ∧ n.kind ≠ .other := by
  have nameOf : ∀ {t n}, Found nm t n → n.name = nm := by
    intro t n f
    induction f with
    | here h => exact h
    | deeper _ _ _ ih => exact ih
  unfold resolve at h
  split at h
  · cases h
  · rename_i t e
    have ft : Found nm root t := (C254_search nm root t).1 (by rw [e]; simp)
    split at h
    · cases h
    · split at h
      · cases h
      · rename_i h1 h2
        cases h
        exact ⟨h2, t, ft, rfl, nameOf ft, h1⟩
  · rename_i t u e
    have ft : Found nm root t := (C254_search nm root t).1 (by rw [e]; simp)
    have fu : Found nm root u := (C254_search nm root u).1 (by rw [e]; simp)
    obtain ⟨h1, h2, ⟨h3, h4⟩ | ⟨h3, h4, h5⟩⟩ := pick_two h
    · refine ⟨?_, u, fu, h4.symm, nameOf fu, h2⟩
      intro x
      rw [hself u fu (by rw [← h4, x])] at h3
      cases h3
    · refine ⟨?_, t, ft, h5.symm, nameOf ft, h1⟩
      intro x
      rw [hself t ft (by rw [← h5, x])] at h4
      cases h4
  · cases h

/-- **C254** (if the exported port has the internal name and is itself below the search path; otherwise see C254_ambiguous_violated) What it stands
for is the only other node found. -/
theorem C254_unique_partial (self : Nat) (nm : String) (root e : Tree) (he : Found nm root e) (hid : e.id = self) (hk : e.kind = .exported)
    (p : Nat) (h : resolve self nm root = some p) (n : Tree) (hn : Found nm root n) : n.id = self ∨ n.id = p := by
  rw [← C254_search] at he hn
  unfold resolve at h
  split at h
  · cases h
  · rename_i t e'
    rw [e', List.mem_singleton] at he hn
    subst he hn
    exact Or.inl hid
  · rename_i t u e'
    rw [e'] at he hn
    simp only [List.mem_cons, List.not_mem_nil, or_false] at he hn
    obtain ⟨h1, h2, ⟨h3, h4⟩ | ⟨h3, h4, h5⟩⟩ := pick_two h
    · rcases hn with rfl | rfl
      · rcases he with rfl | rfl
        · exact Or.inl hid
        · rw [hk] at h3; cases h3
      · exact Or.inr h4.symm
    · rcases hn with rfl | rfl
      · exact Or.inr h5.symm
      · rcases he with rfl | rfl
        · rw [hk] at h4; cases h4
        · exact Or.inl hid
  · cases h

/-- **C254** A port that is the only node found, or the only one beside an exported port, is what the exported port stands for. -/
theorem C254_complete (self : Nat) (nm : String) (root n e : Tree) (hn : n.kind = .port) (he : e.kind = .exported) (hs : n.id ≠ self)
    (h : search nm root = [n] ∨ search nm root = [n, e] ∨ search nm root = [e, n]) : resolve self nm root = some n.id := by
  unfold resolve
  rcases h with h | h | h <;> rw [h] <;> simp [hn, hs, pick, he]

/-- a block that exports the port of one of its parts under the same name -/
def demo : Tree := .node 0 "cpu" .other [.node 1 "ports" .other [.node 2 "out_req" .exported []],
  .node 3 "lsu" .other [.node 4 "ports" .other [.node 5 "out_req" .port [], .node 6 "in_ack" .port []]]]

example : resolve 2 "out_req" demo = some 5 ∧ resolve 2 "in_ack" demo = some 6 ∧ resolve 2 "none" demo = none ∧
    (search "out_req" demo).map Tree.id = [2, 5] := by
  simp [resolve, demo, search, searchAll, pick, Tree.kind, Tree.id]

/-- **C254** is violated by an exported port with a name of its own if two parts have a port of the internal name: the last is taken without an
error, while three are refused. -/
theorem C254_ambiguous_violated :
    resolve 2 "req" (.node 0 "cpu" .other [.node 2 "my_req" .exported [], .node 3 "a" .other [.node 4 "req" .port []],
      .node 5 "b" .other [.node 6 "req" .port []]]) = some 6 ∧
    resolve 2 "req" (.node 0 "cpu" .other [.node 2 "my_req" .exported [], .node 3 "a" .other [.node 4 "req" .port []],
      .node 5 "b" .other [.node 6 "req" .port []], .node 7 "c" .other [.node 8 "req" .port []]]) = none := by
  simp [resolve, search, searchAll, pick, Tree.kind, Tree.id]

end Sparta.ExPort
