import Verif.MemoryMap.Lemmas5

/-!
The invariant of the memory map over histories, and lookups.
-/

namespace Sparta.MemoryMap

/-- Tree `t` of the map `s` and its keys. -/
structure Inv (s : Map) (t : T) : Prop where
  good : Good s.tree t
  pw : t.keys.Pairwise KLt
  dst : ∀ m, Key.dest m ∈ t.keys ↔ m ∈ s.mappings
  sps : ∀ a, Key.sep a ∈ t.keys → a < topAddr ∧ ∃ m ∈ s.mappings, a = m.start ∨ a = m.stop
  wf : ∀ m ∈ s.mappings, m.start < m.stop ∧ m.stop ≤ topAddr ∧ Key.sep m.start ∈ t.keys ∧
    (Key.sep m.stop ∈ t.keys ∨ m.stop = topAddr)
  size : t.io.length ≤ 3 * s.mappings.length
  dis : s.mappings.Pairwise (fun a b => a.stop ≤ b.start ∨ b.stop ≤ a.start)

theorem create_inv {bs s} (h : create bs = some s) : Inv s .leaf ∧ s.mappings = [] ∧
    s.blockSize = bs ∧ s.mask = 2 ^ bs.log2 - 1 ∧ bs ≠ 0 := by
  unfold create at h
  split at h
  · cases h
  · split at h
    · cases h
    · rename_i h0 _
      cases h
      refine ⟨⟨⟨⟨trivial, rfl, by simp [T.ids, T.io]⟩, ⟨0, rfl⟩, rfl, rfl, by simp [T.ids, T.io]⟩,
        by simp, ?_, ?_, ?_, by simp [T.io], by simp⟩, rfl, rfl, rfl, h0⟩ <;> simp

theorem overlaps_false {m : Mapping} {a b : Nat} (hm : m.start < m.stop) (hab : a < b) :
    m.overlaps a b = false ↔ m.stop ≤ a ∨ b ≤ m.start := by
  simp only [Mapping.overlaps, Bool.or_eq_false_iff, Bool.and_eq_false_iff, decide_eq_false_iff_not]
  omega

/-- Growth of the tree by a key list is counted by its nodes. -/
theorem nodup_keys {L : List Key} {start stop} (E : Env L start stop) : L.Nodup := by
  refine E.pw.imp_of_mem ?_
  intro a b ha hb h hab
  subst hab
  exact klt_irrefl E ha h

theorem length_le_of_subset {α : Type _} [DecidableEq α] : ∀ {L M : List α}, L.Nodup →
    (∀ x ∈ L, x ∈ M) → L.length ≤ M.length := by
  intro L
  induction L with
  | nil => intro M _ _; simp
  | cons x L ih =>
    intro M h hs
    rw [List.nodup_cons] at h
    have hx : x ∈ M := hs x (by simp)
    have := ih (M := M.erase x) h.2 (fun y hy =>
      (List.mem_erase_of_ne (fun e : y = x => h.1 (e ▸ hy))).2 (hs y (List.mem_cons_of_mem _ hy)))
    rw [List.length_erase_of_mem hx] at this
    have hp : 0 < M.length := List.length_pos_of_mem hx
    simp only [List.length_cons]; omega

/-- The insertion on the tree. -/
theorem insert_spec {s : Map} {t : T} (I : Inv s t) {m : Mapping} (h1 : m.start < m.stop)
    (h2 : m.stop ≤ topAddr) (h3 : ∀ x ∈ s.mappings, x.stop ≤ m.start ∨ m.stop ≤ x.start) :
    ∃ tr t', insertMapping s.tree m = some tr ∧
      Inv { s with tree := tr, mappings := s.mappings ++ [m] } t' := by
  have E : Env t.keys m.start m.stop := by
    refine ⟨I.pw, ?_, ?_, fun a ha => (I.sps a ha).1, h1, h2⟩
    · intro x hx
      obtain ⟨w1, _, w3, w4⟩ := I.wf x ((I.dst x).1 hx)
      exact ⟨w1, w3, w4⟩
    · intro k hk
      cases k with
      | dest x => exact h3 x ((I.dst x).1 hk)
      | sep a =>
        obtain ⟨_, x, hx, ha⟩ := I.sps a hk
        have w := (I.wf x hx).1
        have := h3 x hx
        simp only [Low, High]
        omega
  -- first phase
  have phase1 : ∃ s1 n1 max1 fs c l r,
      placeFirst s.tree m.start = some (s1, n1, max1) ∧
      Good s1 (plug (.node n1 (.sep m.start) c l r) fs) ∧
      Env (plug (.node n1 (.sep m.start) c l r) fs).keys m.start m.stop ∧
      (∀ x, x ∈ (plug (.node n1 (.sep m.start) c l r) fs).keys ↔ x ∈ t.keys ∨ x = .sep m.start) ∧
      (r = .leaf → HeadOK (kR fs) max1) ∧ m.start < max1 := by
    cases t with
    | leaf =>
      have hroot : s.tree.root = none := I.good.rep.root
      have hnext : s.tree.next = 0 := I.good.size.symm
      let s0 : Tree := { (s.tree.alloc none (.sep m.start)) with root := some s.tree.next }
      have hi : s0.h s.tree.next = ⟨.sep m.start, true, none, none, none⟩ := upd_same _ _ _
      have H : TRep s0 (plug (.node s.tree.next (.sep m.start) true .leaf .leaf) []) :=
        ⟨⟨hi, trivial, trivial⟩, rfl, by simp [plug, T.ids, T.io]⟩
      obtain ⟨s', t', e1, e2, e3, e4, e5, e6⟩ := fixup_spec H trivial (Nat.zero_le _)
      have hmem : (s.tree.next, Key.sep m.start) ∈ t'.io := by rw [e4]; simp [plug, T.io]
      have e3' : s'.next = 1 := by
        rw [e3]; show s.tree.next + 1 = 1; rw [hnext]
      have hio : t'.io = [(s.tree.next, .sep m.start)] := by rw [e4]; simp [plug, T.io]
      have hk : t'.keys = [.sep m.start] := by unfold T.keys; rw [hio]; rfl
      have G' : Good s' t' := ⟨e2, e5, e6, by rw [hio, e3']; rfl, by
        intro i hi
        unfold T.ids at hi; rw [hio] at hi
        have : i = s.tree.next := by simpa using hi
        omega⟩
      have E' : Env t'.keys m.start m.stop := by
        refine E.insert (by rw [hk]; simp) ?_ (Or.inl (Nat.le_refl _)) (by omega)
        intro x; rw [hk]; simp
      have hmm : ∀ x, x ∈ t'.keys ↔ x ∈ T.leaf.keys ∨ x = .sep m.start := by
        intro x; rw [hk]; simp
      obtain ⟨fs, c, l, r, rfl⟩ := decomp hmem
      refine ⟨s', s.tree.next, topAddr, fs, c, l, r, ?_, G', E', hmm, ?_, by omega⟩
      · rw [placeFirst, hroot]; simp only
        have : fixup s0 s.tree.next = some s' := e1
        rw [show fixup { (s.tree.alloc none (.sep m.start)) with root := some s.tree.next } s.tree.next
          = some s' from this]
        rfl
      · intro _
        rw [keys_plug, keys_node] at hk
        have hl := congrArg List.length hk
        simp at hl
        have : kR fs = [] := List.eq_nil_of_length_eq_zero (by omega)
        rw [this]; simp [HeadOK]
    | node i k c l r =>
      have hroot : s.tree.root = some i := I.good.rep.root
      obtain ⟨s', n', max', fs', c', l', r', q⟩ := placeStart_spec (start := m.start) (stop := m.stop)
        (.node i k c l r) (s.tree.next + 1) [] s.tree i topAddr I.good rfl E (by simp [kL, ioL])
        (by simp [kR, ioR]) (by simp [kR, ioR, HeadOK]) (by omega) (by rw [I.good.size]; omega)
      refine ⟨s', n', max', fs', c', l', r', ?_, q.2⟩
      rw [placeFirst, hroot]; exact q.1
  obtain ⟨s1, n1, max1, fs, c, l, r, p1, p2, p3, p4, p5, p6⟩ := phase1
  obtain ⟨s2, n2, t2, q1, q2, q3⟩ := placeEnd_spec (fuel := s1.next + 1) p2 p3 p5 p6
    (by rw [p2.size]; omega)
  obtain ⟨s3, t3, r1, r2, r3, r4⟩ := placeDest_spec q2
  refine ⟨s3, t3, ?_, ?_⟩
  · rw [insertMapping]
    rw [p1]
    simp only [q1]
    exact r1
  · have hmem : ∀ x, x ∈ t3.keys ↔ x ∈ t.keys ∨ x = .sep m.start ∨
        (x = .sep m.stop ∧ m.stop ≠ topAddr) ∨ x = .dest m := by
      intro x; rw [r4, q3, p4]
      constructor
      · rintro (((h | h) | h) | h)
        · exact Or.inl h
        · exact Or.inr (Or.inl h)
        · exact Or.inr (Or.inr (Or.inl h))
        · exact Or.inr (Or.inr (Or.inr h))
      · rintro (h | h | h | h)
        · exact Or.inl (Or.inl (Or.inl h))
        · exact Or.inl (Or.inl (Or.inr h))
        · exact Or.inl (Or.inr h)
        · exact Or.inr h
    have hmaps : ∀ x, x ∈ s.mappings ++ [m] ↔ x ∈ s.mappings ∨ x = m := by intro x; simp
    refine ⟨r2, r3, ?_, ?_, ?_, ?_, ?_⟩
    · intro x
      rw [hmem]; show _ ↔ x ∈ s.mappings ++ [m]
      rw [hmaps, I.dst]
      simp
    · intro a ha
      rcases (hmem _).1 ha with h | h | h | h
      · obtain ⟨w1, x, hx, w2⟩ := I.sps a h
        exact ⟨w1, x, (hmaps x).2 (Or.inl hx), w2⟩
      · cases h; exact ⟨by omega, m, (hmaps m).2 (Or.inr rfl), Or.inl rfl⟩
      · obtain ⟨h, h'⟩ := h
        cases h; exact ⟨by omega, m, (hmaps m).2 (Or.inr rfl), Or.inr rfl⟩
      · cases h
    · intro x hx
      rcases (hmaps x).1 hx with hx | rfl
      · obtain ⟨w1, w2, w3, w4⟩ := I.wf x hx
        exact ⟨w1, w2, (hmem _).2 (Or.inl w3), w4.imp (fun h => (hmem _).2 (Or.inl h)) id⟩
      · refine ⟨h1, h2, (hmem _).2 (Or.inr (Or.inl rfl)), ?_⟩
        by_cases ht : x.stop = topAddr
        · exact Or.inr ht
        · exact Or.inl ((hmem _).2 (Or.inr (Or.inr (Or.inl ⟨rfl, ht⟩))))
    · -- counting
      have hnd2 : t2.keys.Nodup := nodup_keys q2.env
      have hlen : t3.keys.length ≤ (.dest m :: .sep m.stop :: .sep m.start :: t.keys : List Key).length := by
        refine length_le_of_subset ?_ ?_
        · refine r3.imp_of_mem ?_
          intro a b ha hb h hab
          subst hab
          cases a with
          | sep y => simp [KLt] at h
          | dest x =>
            have : x.start < x.stop := by
              rcases (hmem _).1 ha with h' | h' | h' | h'
              · exact (E.wf x h').1
              · cases h'
              · cases h'.1
              · cases h'; exact h1
            simp only [KLt] at h; omega
        · intro x hx
          rcases (hmem x).1 hx with h | h | h | h
          · simp [h]
          · simp [h]
          · simp [h.1]
          · simp [h]
      have := I.size
      simp only [T.keys, List.length_map, List.length_cons, List.length_append, List.length_nil] at hlen ⊢
      omega
    · show (s.mappings ++ [m]).Pairwise _
      rw [List.pairwise_append]
      refine ⟨I.dis, by simp, ?_⟩
      intro x hx y hy
      have : y = m := by simpa using hy
      subst this
      exact h3 x hx

/-- Height of a tree. -/
def T.height : T → Nat
  | .leaf => 0
  | .node _ _ _ l r => max l.height r.height + 1

theorem rb_height {t : T} : ∀ {k}, RB t k → t.height ≤ 2 * k + (if t.red then 1 else 0) := by
  induction t with
  | leaf => intro k h; simp [T.height]
  | node i key c l r ihl ihr =>
    intro k h
    rcases h with ⟨hc, h1, h2, h3, h4⟩ | ⟨hc, m, hk, h3, h4⟩
    · have a := ihl h3
      have b := ihr h4
      rw [h1] at a; rw [h2] at b
      simp only [T.height, T.red, hc, if_true, Bool.false_eq_true, if_false] at *
      omega
    · have a := ihl h3
      have b := ihr h4
      subst hk
      have a' : l.height ≤ 2 * m + 1 := by split at a <;> omega
      have b' : r.height ≤ 2 * m + 1 := by split at b <;> omega
      simp only [T.height, T.red, hc, Bool.false_eq_true, if_false]
      omega

theorem rb_size {t : T} : ∀ {k}, RB t k → 2 ^ k ≤ t.io.length + 1 := by
  induction t with
  | leaf => intro k h; have : k = 0 := h; subst this; simp
  | node i key c l r ihl ihr =>
    intro k h
    rcases h with ⟨hc, h1, h2, h3, h4⟩ | ⟨hc, m, hk, h3, h4⟩
    · have a := ihl h3
      simp only [T.io, List.length_append, List.length_cons]; omega
    · have a := ihl h3
      have b := ihr h4
      subst hk
      simp only [T.io, List.length_append, List.length_cons, Nat.pow_succ]; omega

/-- The mapping `m` contains the address. -/
def holds (m : Mapping) (addr : Nat) : Prop := m.start ≤ addr ∧ addr < m.stop

theorem findLoop_spec {s : Tree} {addr : Nat} : ∀ (t : T) (fuel : Nat) (p : Option Nat), Rep s.h p t →
    t.keys.Pairwise KLt → (∀ m, Key.dest m ∈ t.keys → m.start < m.stop) → t.io.length ≤ fuel →
    ∃ res cnt, findLoop fuel s t.root addr = some (res, cnt) ∧ cnt ≤ t.height ∧
      (∀ m, res = some m → Key.dest m ∈ t.keys ∧ holds m addr) ∧
      (res = none → ∀ m, Key.dest m ∈ t.keys → ¬ holds m addr) := by
  intro t
  induction t with
  | leaf =>
    intro fuel p _ _ _ _
    exact ⟨none, 0, by cases fuel <;> rfl, Nat.zero_le _, (fun m h => by cases h), fun _ m h => by simp at h⟩
  | node i k c l r ihl ihr =>
    intro fuel p hrep pw hw hfuel
    obtain ⟨hi, rl, rr⟩ := hrep
    have hlen : l.io.length + r.io.length + 1 ≤ fuel := by simp [T.io] at hfuel; omega
    obtain ⟨fuel, rfl⟩ : ∃ m, fuel = m + 1 := ⟨fuel - 1, by omega⟩
    rw [keys_node] at pw hw
    have pw0 := pw
    rw [List.pairwise_append, List.pairwise_cons] at pw
    obtain ⟨pl, ⟨pk, pr⟩, plk⟩ := pw
    have hlk : ∀ x ∈ l.keys, KLt x k := fun x hx => plk x hx k (by simp)
    obtain ⟨res1, cnt1, a1, a2, a3, a4⟩ := ihl fuel (some i) rl pl (fun m hm => hw m (by simp [hm])) (by omega)
    obtain ⟨res2, cnt2, b1, b2, b3, b4⟩ := ihr fuel (some i) rr pr (fun m hm => hw m (by simp [hm])) (by omega)
    -- going left, when nothing from the node on contains the address
    have goL : (∀ m, Key.dest m ∈ k :: r.keys → ¬ holds m addr) →
        ∃ res cnt, (findLoop fuel s l.root addr).map (fun x => (x.1, x.2 + 1)) = some (res, cnt) ∧
          cnt ≤ (T.node i k c l r).height ∧
          (∀ m, res = some m → Key.dest m ∈ l.keys ++ k :: r.keys ∧ holds m addr) ∧
          (res = none → ∀ m, Key.dest m ∈ l.keys ++ k :: r.keys → ¬ holds m addr) := by
      intro hno
      refine ⟨res1, cnt1 + 1, by rw [a1]; rfl, by simp only [T.height]; omega, ?_, ?_⟩
      · intro m hm; exact ⟨by simp [(a3 m hm).1], (a3 m hm).2⟩
      · intro hn m hm
        rcases List.mem_append.1 hm with h | h
        · exact a4 hn m h
        · exact hno m h
    have goR : (∀ m, Key.dest m ∈ l.keys ∨ Key.dest m = k → ¬ holds m addr) →
        ∃ res cnt, (findLoop fuel s r.root addr).map (fun x => (x.1, x.2 + 1)) = some (res, cnt) ∧
          cnt ≤ (T.node i k c l r).height ∧
          (∀ m, res = some m → Key.dest m ∈ l.keys ++ k :: r.keys ∧ holds m addr) ∧
          (res = none → ∀ m, Key.dest m ∈ l.keys ++ k :: r.keys → ¬ holds m addr) := by
      intro hno
      refine ⟨res2, cnt2 + 1, by rw [b1]; rfl, by simp only [T.height]; omega, ?_, ?_⟩
      · intro m hm; exact ⟨by simp [(b3 m hm).1], (b3 m hm).2⟩
      · intro hn m hm
        rcases List.mem_append.1 hm with h | h
        · exact hno m (Or.inl h)
        · rcases List.mem_cons.1 h with h | h
          · exact hno m (Or.inr h)
          · exact b4 hn m h
    rw [T.root, findLoop, hi, keys_node]
    cases k with
    | dest x =>
      have hx := hw x (by simp)
      simp only
      by_cases h1 : addr < x.start
      · rw [if_pos h1]
        refine goL ?_
        intro m hm hh
        rcases List.mem_cons.1 hm with h | h
        · cases h; exact absurd hh.1 (by omega)
        · have := pk _ h; simp only [KLt] at this; have := hh.1; omega
      · rw [if_neg h1]
        by_cases h2 : addr ≥ x.stop
        · rw [if_pos h2]
          refine goR ?_
          intro m hm hh
          rcases hm with h | h
          · have := hlk _ h; simp only [KLt] at this; have := hh.2; omega
          · cases h; have := hh.2; omega
        · rw [if_neg h2]
          refine ⟨some x, 1, rfl, by simp [T.height], ?_, (fun h => by cases h)⟩
          intro m hm
          cases hm
          exact ⟨by simp, by unfold holds; omega⟩
    | sep a =>
      simp only
      by_cases h1 : addr ≥ a
      · rw [if_pos h1]
        refine goR ?_
        intro m hm hh
        rcases hm with h | h
        · have := hlk _ h; simp only [KLt] at this; have := hh.2; omega
        · cases h
      · rw [if_neg h1]
        refine goL ?_
        intro m hm hh
        rcases List.mem_cons.1 hm with h | h
        · cases h
        · have := pk _ h; simp only [KLt] at this; have := hh.1; omega

/-- `verifyHasMapping` in terms of the lookup. -/
theorem verifyLoop_eq (t : Tree) (addr stop : Nat) : ∀ (fuel : Nat) (p : Option Nat),
    verifyLoop fuel t p addr stop = (findLoop fuel t p addr).map (fun x => match x.1 with
      | none => .none
      | some m => if stop ≤ m.stop then .ok else .spans) := by
  intro fuel
  induction fuel with
  | zero => intro p; cases p <;> rfl
  | succ fuel ih =>
    intro p
    cases p with
    | none => rfl
    | some n =>
      rw [verifyLoop, findLoop]
      cases (t.h n).key with
      | dest m =>
        simp only
        split
        · rw [ih, Option.map_map]; rfl
        · split
          · rw [ih, Option.map_map]; rfl
          · simp only [Option.map_some]; split <;> rfl
      | sep a =>
        simp only
        split <;> rw [ih, Option.map_map] <;> rfl

/-- Lookup in a map satisfying the invariant. -/
theorem find_inv {s : Map} {t : T} (I : Inv s t) (addr : Nat) :
    ∃ res cnt, findLoop s.tree.next s.tree s.tree.root addr = some (res, cnt) ∧
      2 ^ cnt ≤ (3 * s.mappings.length + 1) ^ 2 ∧
      (∀ m, res = some m → m ∈ s.mappings ∧ holds m addr) ∧
      (res = none → ∀ m ∈ s.mappings, ¬ holds m addr) := by
  obtain ⟨res, cnt, h1, h2, h3, h4⟩ := findLoop_spec (s := s.tree) (addr := addr) t s.tree.next none
    I.good.rep.rep I.pw (fun m hm => (I.wf m ((I.dst m).1 hm)).1) (by rw [I.good.size]; omega)
  rw [← I.good.rep.root] at h1
  obtain ⟨k, hk⟩ := I.good.rb
  have e1 := rb_height hk
  have e2 := rb_size hk
  rw [I.good.black] at e1
  simp only [Bool.false_eq_true, if_false] at e1
  have e3 := I.size
  refine ⟨res, cnt, h1, ?_, ?_, ?_⟩
  · calc 2 ^ cnt ≤ 2 ^ (2 * k) := Nat.pow_le_pow_right (by omega) (by omega)
      _ = (2 ^ k) ^ 2 := by rw [Nat.mul_comm, Nat.pow_mul]
      _ ≤ (3 * s.mappings.length + 1) ^ 2 := Nat.pow_le_pow_left (by omega) 2
  · intro m hm; exact ⟨(I.dst m).1 (h3 m hm).1, (h3 m hm).2⟩
  · intro hn m hm; exact h4 hn m ((I.dst m).2 hm)

end Sparta.MemoryMap
