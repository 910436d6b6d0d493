import Verif.MemoryMap.Lemmas6

/-!
# Properties of the memory map (C97 - C100)
-/

namespace Sparta.MemoryMap

/-- The arguments are 64 bit addresses. -/
def AddOp.wf (o : AddOp) : Prop :=
  o.start < wordSize ∧ o.stop < wordSize ∧ o.destStart < wordSize

/-- The mappings accepted in a history, in order: what the caller knows from the calls and their
outcomes. -/
def accepted (ops : List AddOp) (rs : List (Except AddError Unit)) : List Mapping :=
  (ops.zip rs).filterMap fun (o, r) =>
    match r, o.memif with
    | .ok _, some mi => some ⟨o.start, o.stop, o.destStart, mi.id⟩
    | _, _ => none

/-- The documented conditions for a new mapping on a map with block size `bs` holding `ms`. -/
def Acceptable (bs : Nat) (ms : List Mapping) (o : AddOp) : Prop :=
  ∃ mi, o.memif = some mi ∧ mi.blockSize = bs ∧ o.start < o.stop ∧
    bs ∣ o.start ∧ bs ∣ o.stop ∧ bs ∣ o.destStart ∧
    (o.stop - o.start) + o.destStart ≤ mi.range ∧
    ∀ m ∈ ms, m.stop ≤ o.start ∨ o.stop ≤ m.start

/-! ### Helpers -/

theorem topAddr_succ : topAddr + 1 = wordSize := by
  unfold topAddr
  have : 0 < wordSize := Nat.two_pow_pos 64
  omega

/-- The checks of `addMapping`, as conditions. -/
theorem checkAdd_ok {s : Map} {o : AddOp} {t : T} (I : Inv s t) {m : Mapping} :
    checkAdd s o.start o.stop o.memif o.destStart = .ok m ↔
      ∃ mi, o.memif = some mi ∧ m = ⟨o.start, o.stop, o.destStart, mi.id⟩ ∧
        mi.blockSize = s.blockSize ∧ o.start < o.stop ∧ o.start &&& s.mask = 0 ∧
        o.stop &&& s.mask = 0 ∧ o.destStart &&& s.mask = 0 ∧
        ((o.stop - o.start) + o.destStart) % wordSize ≤ mi.range ∧
        ∀ x ∈ s.mappings, x.stop ≤ o.start ∨ o.stop ≤ x.start := by
  unfold checkAdd
  cases hm : o.memif with
  | none => simp
  | some mi =>
    simp only
    by_cases h1 : mi.blockSize = s.blockSize
    · rw [if_neg (by simp [h1])]
      by_cases h2 : o.start < o.stop
      · rw [if_neg (by simp [h2])]
        by_cases h3 : o.start &&& s.mask = 0
        · rw [if_neg (by simp [h3])]
          by_cases h4 : o.stop &&& s.mask = 0
          · rw [if_neg (by simp [h4])]
            by_cases h5 : o.destStart &&& s.mask = 0
            · rw [if_neg (by simp [h5])]
              by_cases h6 : mi.range < ((o.stop - o.start) + o.destStart) % wordSize
              · rw [if_pos h6]
                constructor
                · intro h; cases h
                · rintro ⟨mi', e, _, _, _, _, _, _, h, _⟩
                  cases e; omega
              · rw [if_neg h6]
                have hany : s.mappings.any (fun m => m.overlaps o.start o.stop) = false ↔
                    ∀ x ∈ s.mappings, x.stop ≤ o.start ∨ o.stop ≤ x.start := by
                  rw [List.any_eq_false]
                  constructor
                  · intro h x hx
                    exact (overlaps_false (I.wf x hx).1 h2).1 (by simpa using h x hx)
                  · intro h x hx
                    rw [(overlaps_false (I.wf x hx).1 h2).2 (h x hx)]; simp
                cases h7 : s.mappings.any (fun m => m.overlaps o.start o.stop) with
                | true =>
                  rw [if_pos rfl]
                  constructor
                  · intro h; cases h
                  · rintro ⟨_, _, _, _, _, _, _, _, _, h⟩
                    rw [hany.2 h] at h7; cases h7
                | false =>
                  rw [if_neg (by simp)]
                  constructor
                  · intro h; cases h
                    exact ⟨mi, rfl, rfl, h1, h2, h3, h4, h5, by omega, hany.1 h7⟩
                  · rintro ⟨mi', e, rfl, _⟩; cases e; rfl
            · rw [if_pos (by simp [h5])]
              constructor
              · intro h; cases h
              · rintro ⟨_, _, _, _, _, _, _, h, _⟩; exact absurd h h5
          · rw [if_pos (by simp [h4])]
            constructor
            · intro h; cases h
            · rintro ⟨_, _, _, _, _, _, h, _⟩; exact absurd h h4
        · rw [if_pos (by simp [h3])]
          constructor
          · intro h; cases h
          · rintro ⟨_, _, _, _, _, h, _⟩; exact absurd h h3
      · rw [if_pos h2]
        constructor
        · intro h; cases h
        · rintro ⟨_, _, _, _, h, _⟩; exact absurd h h2
    · rw [if_pos h1]
      constructor
      · intro h; cases h
      · rintro ⟨mi', e, _, h, _⟩; cases e; exact absurd h h1

/-- One call on a map satisfying the invariant. -/
theorem step_inv {s : Map} {t : T} (I : Inv s t) {o : AddOp} (hw : o.wf) :
    ∃ r s' t', step s o = some (r, s') ∧ Inv s' t' ∧ s'.blockSize = s.blockSize ∧ s'.mask = s.mask ∧
      ((∃ e, r = .error e ∧ checkAdd s o.start o.stop o.memif o.destStart = .error e ∧ s' = s) ∨
       (r = .ok () ∧ ∃ m, checkAdd s o.start o.stop o.memif o.destStart = .ok m ∧
        s'.mappings = s.mappings ++ [m])) := by
  cases hc : checkAdd s o.start o.stop o.memif o.destStart with
  | error e =>
    exact ⟨.error e, s, t, by rw [step, addMapping, hc], I, rfl, rfl, Or.inl ⟨e, rfl, rfl, rfl⟩⟩
  | ok m =>
    obtain ⟨mi, _, hm, _, h2, _, _, _, _, h3⟩ := (checkAdd_ok I).1 hc
    have ht := topAddr_succ
    have hs := hw.2.1
    obtain ⟨tr, t', e, I'⟩ := insert_spec I (m := m) (by rw [hm]; exact h2)
      (by rw [hm]; show o.stop ≤ topAddr; omega) (by rw [hm]; exact h3)
    exact ⟨.ok (), _, t', by rw [step, addMapping, hc]; simp only [e], I', rfl, rfl,
      Or.inr ⟨rfl, m, rfl, rfl⟩⟩

theorem accepted_cons_error (o ops e rs) :
    accepted (o :: ops) (.error e :: rs) = accepted ops rs := by
  simp [accepted]

theorem accepted_cons_ok (o : AddOp) (ops rs) {mi} (h : o.memif = some mi) :
    accepted (o :: ops) (.ok () :: rs) = ⟨o.start, o.stop, o.destStart, mi.id⟩ :: accepted ops rs := by
  simp [accepted, h]

theorem run_inv : ∀ (ops : List AddOp) (s : Map) (t : T), Inv s t → (∀ o ∈ ops, o.wf) →
    ∃ s' rs t', run s ops = some (s', rs) ∧ Inv s' t' ∧ s'.blockSize = s.blockSize ∧
      s'.mask = s.mask ∧ rs.length = ops.length ∧
      s'.mappings = s.mappings ++ accepted ops rs := by
  intro ops
  induction ops with
  | nil => intro s t I _; exact ⟨s, [], t, rfl, I, rfl, rfl, rfl, by simp [accepted]⟩
  | cons o ops ih =>
    intro s t I hw
    obtain ⟨r, s1, t1, e1, I1, b1, m1, hr⟩ := step_inv I (hw o (by simp))
    obtain ⟨s2, rs, t2, e2, I2, b2, m2, l2, a2⟩ := ih s1 t1 I1 (fun o ho => hw o (by simp [ho]))
    refine ⟨s2, r :: rs, t2, by rw [run, e1]; simp only [e2], I2, by rw [b2, b1], by rw [m2, m1],
      by simp [l2], ?_⟩
    rcases hr with ⟨e, rfl, _, rfl⟩ | ⟨rfl, m, hc, hm⟩
    · rw [a2, accepted_cons_error]
    · obtain ⟨mi, h1, h2, _⟩ := (checkAdd_ok I).1 hc
      rw [a2, hm, accepted_cons_ok _ _ _ h1, h2]; simp

/-- A map reached from its constructor by some calls with the given outcomes. -/
theorem reach_inv {bs : Nat} {s0 s : Map} {ops rs} (h0 : create bs = some s0) (hw : ∀ o ∈ ops, o.wf)
    (hr : run s0 ops = some (s, rs)) : ∃ t, Inv s t ∧ s.blockSize = bs ∧ s.mask = 2 ^ bs.log2 - 1 ∧
      rs.length = ops.length ∧ s.mappings = accepted ops rs := by
  obtain ⟨I0, hm, hb, hk, _⟩ := create_inv h0
  obtain ⟨s', rs', t', e, I', b', m', l', a'⟩ := run_inv ops s0 _ I0 hw
  rw [hr] at e
  cases e
  exact ⟨t', I', by rw [b', hb], by rw [m', hk], l', by rw [a', hm]; simp⟩

theorem land_mask_dvd {k a : Nat} : a &&& (2 ^ k - 1) = 0 ↔ 2 ^ k ∣ a := by
  rw [land_mask]; exact ⟨Nat.dvd_of_mod_eq_zero, Nat.mod_eq_zero_of_dvd⟩

/-- The mapping found is the one containing the address. -/
theorem find_iff {s : Map} {t : T} (I : Inv s t) (addr : Nat) :
    ∃ res cnt, findLoop s.tree.next s.tree s.tree.root addr = some (res, cnt) ∧
      2 ^ cnt ≤ (3 * s.mappings.length + 1) ^ 2 ∧
      ∀ m, res = some m ↔ m ∈ s.mappings ∧ m.start ≤ addr ∧ addr < m.stop := by
  obtain ⟨res, cnt, h1, h2, h3, h4⟩ := find_inv I addr
  refine ⟨res, cnt, h1, h2, ?_⟩
  intro m
  constructor
  · exact fun h => h3 m h
  · rintro ⟨hm, hh⟩
    cases res with
    | none => exact absurd hh (h4 rfl m hm)
    | some m' =>
      obtain ⟨a, b⟩ := h3 m' rfl
      -- two mappings containing the address are the same
      have key : ∀ (L : List Mapping), L.Pairwise (fun a b => a.stop ≤ b.start ∨ b.stop ≤ a.start) →
          m ∈ L → m' ∈ L → m' = m := by
        intro L
        induction L with
        | nil => intro _ h; simp at h
        | cons x L ih =>
          intro hp q1 q2
          rw [List.pairwise_cons] at hp
          have hb : m'.start ≤ addr ∧ addr < m'.stop := b
          rcases List.mem_cons.1 q1 with e1 | q3 <;> rcases List.mem_cons.1 q2 with e2 | q4
          · rw [e1, e2]
          · have := hp.1 _ q4; rw [← e1] at this; omega
          · have := hp.1 _ q3; rw [← e2] at this; omega
          · exact ih hp.2 q3 q4
      rw [key _ I.dis hm a]

/-! ### C97: lookups -/

/-- C97. A history of `addMapping` calls, in any order, never fails inside the tree; every call
returns or throws one of the documented exceptions. `getMappings` then gives the accepted mappings in
the order in which they were added, `getNumMappings` their number, and they are disjoint and not
empty. -/
theorem C97_history {bs : Nat} {s0 : Map} (h0 : create bs = some s0) (ops : List AddOp)
    (hw : ∀ o ∈ ops, o.wf) :
    ∃ s rs, run s0 ops = some (s, rs) ∧ rs.length = ops.length ∧ s.mappings = accepted ops rs ∧
      getNumMappings s = (accepted ops rs).length ∧
      (accepted ops rs).Pairwise (fun a b => a.stop ≤ b.start ∨ b.stop ≤ a.start) ∧
      ∀ m ∈ accepted ops rs, m.start < m.stop := by
  obtain ⟨I0, hm, _⟩ := create_inv h0
  obtain ⟨s', rs', t', e, I', b', m', l', a'⟩ := run_inv ops s0 _ I0 hw
  rw [hm, List.nil_append] at a'
  refine ⟨s', rs', e, l', a', by rw [getNumMappings, a'], a' ▸ I'.dis, ?_⟩
  rw [← a']; exact fun m hm => (I'.wf m hm).1

/-- C97. `findMapping` always ends, and gives `m` exactly when `m` is an accepted mapping whose range
contains the address. -/
theorem C97_findMapping {bs : Nat} {s0 s : Map} {ops rs} (h0 : create bs = some s0)
    (hw : ∀ o ∈ ops, o.wf) (hr : run s0 ops = some (s, rs)) (addr : Nat) :
    ∃ res, findMapping s addr = some res ∧
      ∀ m, res = some m ↔ m ∈ accepted ops rs ∧ m.start ≤ addr ∧ addr < m.stop := by
  obtain ⟨t, I, _, _, _, hm⟩ := reach_inv h0 hw hr
  obtain ⟨res, cnt, h1, _, h2⟩ := find_iff I addr
  exact ⟨res, by rw [findMapping, h1]; rfl, hm ▸ h2⟩

/-- C97. `findInterface` gives the interface of the mapping containing the address, and null if no
mapping does. -/
theorem C97_findInterface {bs : Nat} {s0 s : Map} {ops rs} (h0 : create bs = some s0)
    (hw : ∀ o ∈ ops, o.wf) (hr : run s0 ops = some (s, rs)) (addr : Nat) :
    (∀ m ∈ accepted ops rs, m.start ≤ addr → addr < m.stop →
      findInterface s addr = some (some m.memif)) ∧
    ((∀ m ∈ accepted ops rs, ¬ (m.start ≤ addr ∧ addr < m.stop)) → findInterface s addr = some none) := by
  obtain ⟨res, h1, h2⟩ := C97_findMapping h0 hw hr addr
  constructor
  · intro m hm ha hb
    rw [findInterface, h1, (h2 m).2 ⟨hm, ha, hb⟩]; rfl
  · intro hno
    cases res with
    | none => rw [findInterface, h1]; rfl
    | some m => exact absurd ((h2 m).1 rfl).2 (hno m ((h2 m).1 rfl).1)

/-- C97. `mapAddress` gives the interface of the mapping containing the address with the offset of
the address in it, moved by the destination offset (modulo `2^64`), and null if no mapping contains
the address. -/
theorem C97_mapAddress {bs : Nat} {s0 s : Map} {ops rs} (h0 : create bs = some s0)
    (hw : ∀ o ∈ ops, o.wf) (hr : run s0 ops = some (s, rs)) (addr : Nat) :
    (∀ m ∈ accepted ops rs, m.start ≤ addr → addr < m.stop →
      mapAddress s addr = some (some m.memif, (m.destOff + (addr - m.start)) % wordSize)) ∧
    ((∀ m ∈ accepted ops rs, ¬ (m.start ≤ addr ∧ addr < m.stop)) →
      mapAddress s addr = some (none, 0)) := by
  obtain ⟨res, h1, h2⟩ := C97_findMapping h0 hw hr addr
  constructor
  · intro m hm ha hb
    rw [mapAddress, h1, (h2 m).2 ⟨hm, ha, hb⟩]
    simp only [Option.map_some, Option.some.injEq, Prod.mk.injEq, true_and]
    have hlt : m.start < wordSize := by
      obtain ⟨t, I, _, _, _, hmm⟩ := reach_inv h0 hw hr
      have := I.wf m (hmm ▸ hm)
      have := topAddr_succ
      omega
    rw [Mapping.mapAddress]
    rw [show addr + (wordSize - m.start) + m.destOff = (m.destOff + (addr - m.start)) + wordSize by omega,
      Nat.add_mod_right]
  · intro hno
    cases res with
    | none => rw [mapAddress, h1]; rfl
    | some m => exact absurd ((h2 m).1 rfl).2 (hno m ((h2 m).1 rfl).1)

/-- Non-vacuity of C97: five mappings in an order that makes the tree rotate, two of them adjacent,
and one refused. -/
example :
    let mi : MemIF := ⟨7, 4, 1000⟩
    let ops : List AddOp := [⟨64, 68, some mi, 0⟩, ⟨32, 40, some mi, 8⟩, ⟨40, 44, some mi, 100⟩,
      ⟨36, 48, some mi, 0⟩, ⟨8, 12, some mi, 4⟩, ⟨16, 20, some mi, 16⟩]
    ∃ s0 s rs, create 4 = some s0 ∧ run s0 ops = some (s, rs) ∧ (∀ o ∈ ops, o.wf) ∧
      (accepted ops rs).length = 5 ∧ mapAddress s 41 = some (some 7, 101) ∧
      mapAddress s 39 = some (some 7, 15) ∧ mapAddress s 44 = some (none, 0) := by
  refine ⟨_, _, _, rfl, rfl, ?_, ?_, ?_, ?_, ?_⟩
  · unfold AddOp.wf; decide +kernel
  all_goals decide +kernel

/-! ### C98: which mappings are accepted -/

/-- C98 (partial: block sizes that are powers of two, and only if the size plus the destination offset
does not exceed 64 bits; see the two violations below). A call to `addMapping` is accepted exactly
when the documented conditions hold for the mappings accepted so far; otherwise the map is left as it
was. -/
theorem C98_accept_partial {bs : Nat} {s0 s : Map} {ops rs} (h0 : create bs = some s0)
    (hp : ∃ k, bs = 2 ^ k) (hw : ∀ o ∈ ops, o.wf) (hr : run s0 ops = some (s, rs)) (o : AddOp)
    (ho : o.wf) (hno : (o.stop - o.start) + o.destStart < wordSize) :
    ∃ r s', step s o = some (r, s') ∧
      (r = .ok () ↔ Acceptable bs (accepted ops rs) o) ∧
      (¬ Acceptable bs (accepted ops rs) o → s' = s) ∧
      (∀ mi, Acceptable bs (accepted ops rs) o → o.memif = some mi →
        s'.mappings = s.mappings ++ [⟨o.start, o.stop, o.destStart, mi.id⟩]) := by
  obtain ⟨t, I, hb, hmask, _, hm⟩ := reach_inv h0 hw hr
  obtain ⟨k, hk⟩ := hp
  have hl : bs.log2 = k := by rw [hk, Nat.log2_two_pow]
  rw [hl] at hmask
  have hmod : ((o.stop - o.start) + o.destStart) % wordSize = (o.stop - o.start) + o.destStart :=
    Nat.mod_eq_of_lt hno
  have hacc : (∃ m, checkAdd s o.start o.stop o.memif o.destStart = .ok m) ↔
      Acceptable bs (accepted ops rs) o := by
    constructor
    · rintro ⟨m, h⟩
      obtain ⟨mi, h1, _, h2, h3, h4, h5, h6, h7, h8⟩ := (checkAdd_ok I).1 h
      rw [hmask, land_mask_dvd, ← hk] at h4 h5 h6
      exact ⟨mi, h1, by rw [h2, hb], h3, h4, h5, h6, by rw [← hmod]; exact h7, hm ▸ h8⟩
    · rintro ⟨mi, h1, h2, h3, h4, h5, h6, h7, h8⟩
      refine ⟨_, (checkAdd_ok I).2 ⟨mi, h1, rfl, by rw [h2, hb], h3, ?_, ?_, ?_, by rw [hmod]; exact h7, hm ▸ h8⟩⟩
      all_goals rw [hmask, land_mask_dvd, ← hk]; assumption
  obtain ⟨r, s', t', e, _, _, _, hres⟩ := step_inv I ho
  refine ⟨r, s', e, ?_, ?_, ?_⟩
  · rw [← hacc]
    rcases hres with ⟨e, rfl, hc, _⟩ | ⟨rfl, m, hc, _⟩
    · rw [hc]
      constructor
      · intro h; cases h
      · rintro ⟨m, h⟩; cases h
    · exact ⟨fun _ => ⟨m, hc⟩, fun _ => rfl⟩
  · intro hna
    rcases hres with ⟨e, rfl, hc, h⟩ | ⟨rfl, m, hc, _⟩
    · exact h
    · exact absurd (hacc.1 ⟨m, hc⟩) hna
  · intro mi ha hmi
    rcases hres with ⟨e, rfl, hc, h⟩ | ⟨rfl, m, hc, hmap⟩
    · obtain ⟨m, h'⟩ := hacc.2 ha; rw [hc] at h'; cases h'
    · obtain ⟨mi', h1, h2, _⟩ := (checkAdd_ok I).1 hc
      rw [hmi] at h1; cases h1
      rw [hmap, h2]

/-- C98. Every address of an accepted mapping is mapped to an address below the range of its memory
interface, if the size plus the destination offset does not exceed 64 bits. -/
theorem C98_in_range_partial {bs : Nat} {s0 s s' : Map} {ops rs} (h0 : create bs = some s0)
    (hw : ∀ o ∈ ops, o.wf) (hr : run s0 ops = some (s, rs)) (o : AddOp)
    (ho : o.wf) (hno : (o.stop - o.start) + o.destStart < wordSize) {mi : MemIF}
    (hmi : o.memif = some mi) (hacc : step s o = some (.ok (), s')) (addr : Nat)
    (ha : o.start ≤ addr) (hb : addr < o.stop) :
    ∃ x, mapAddress s' addr = some (some mi.id, x) ∧ x = o.destStart + (addr - o.start) ∧
      x < mi.range := by
  obtain ⟨t, I, _, _, hl, hm⟩ := reach_inv h0 hw hr
  have happ : run s0 (ops ++ [o]) = some (s', rs ++ [.ok ()]) := by
    have key : ∀ (ops : List AddOp) (s0 : Map) (rs), run s0 ops = some (s, rs) →
        run s0 (ops ++ [o]) = some (s', rs ++ [.ok ()]) := by
      intro ops
      induction ops with
      | nil =>
        intro s0 rs h
        rw [run] at h
        cases h
        simp [run, hacc]
      | cons p ops ih =>
        intro s0 rs h
        rw [run] at h
        rw [List.cons_append, run]
        cases hs : step s0 p with
        | none => rw [hs] at h; cases h
        | some q =>
          obtain ⟨r, s1⟩ := q
          rw [hs] at h
          simp only at h ⊢
          cases hr' : run s1 ops with
          | none => rw [hr'] at h; cases h
          | some q =>
            obtain ⟨s2, rs2⟩ := q
            rw [hr'] at h
            simp only at h
            cases h
            rw [ih s1 rs2 hr']; rfl
    exact key ops s0 rs hr
  have hw' : ∀ p ∈ ops ++ [o], p.wf := by
    intro p hp
    rcases List.mem_append.1 hp with h | h
    · exact hw p h
    · have : p = o := by simpa using h
      rw [this]; exact ho
  have hmem : (⟨o.start, o.stop, o.destStart, mi.id⟩ : Mapping) ∈ accepted (ops ++ [o]) (rs ++ [.ok ()]) := by
    unfold accepted
    rw [List.zip_append hl.symm, List.filterMap_append, List.mem_append]
    right; simp [hmi]
  have hmap := (C97_mapAddress h0 hw' happ addr).1 _ hmem ha hb
  have hrng : (o.stop - o.start) + o.destStart ≤ mi.range := by
    obtain ⟨r, s1, t1, e, _, _, _, hres⟩ := step_inv I ho
    rw [hacc] at e; cases e
    rcases hres with ⟨e, h, _⟩ | ⟨_, m, hc, _⟩
    · cases h
    · obtain ⟨mi', h1, _, _, _, _, _, _, h7, _⟩ := (checkAdd_ok I).1 hc
      rw [hmi] at h1; cases h1
      rwa [Nat.mod_eq_of_lt hno] at h7
  refine ⟨_, hmap, Nat.mod_eq_of_lt ?_, ?_⟩
  · show o.destStart + (addr - o.start) < wordSize; omega
  · show (o.destStart + (addr - o.start)) % wordSize < mi.range
    rw [Nat.mod_eq_of_lt (by omega)]; omega

/-- Non-vacuity of C98: an accepted call on a map with a mapping. -/
example : ∃ s0 s rs r s', create 16 = some s0 ∧
    run s0 [⟨16, 48, some ⟨1, 16, 64⟩, 16⟩] = some (s, rs) ∧
    step s ⟨48, 64, some ⟨2, 16, 16⟩, 0⟩ = some (r, s') ∧ r = .ok () ∧ s'.mappings.length = 2 := by
  exact ⟨_, _, _, _, _, rfl, rfl, rfl, rfl, by decide +kernel⟩

/-- C98, violation. The range test adds in 64 bits: a mapping of 128 bytes to an offset 64 bytes below
`2^64` passes the test for an interface with a range of 64 bytes, and address 0 is then mapped far
outside that range. -/
theorem C98_range_violated :
    ∃ s0 r s' x, create 64 = some s0 ∧
      step s0 ⟨0, 128, some ⟨1, 64, 64⟩, 2 ^ 64 - 64⟩ = some (r, s') ∧ r = .ok () ∧
      mapAddress s' 0 = some (some 1, x) ∧ ¬ x < 64 := by
  refine ⟨_, _, _, 2 ^ 64 - 64, rfl, rfl, rfl, ?_, ?_⟩ <;> decide +kernel

/-- C98, violation. The block size must be a power of two, but this is not checked: with 48 the
alignment tested is 32, and a mapping which does not start at a block is accepted. -/
theorem C98_alignment_violated :
    ∃ s0 r s', create 48 = some s0 ∧ step s0 ⟨32, 64, some ⟨1, 48, 1000⟩, 0⟩ = some (r, s') ∧
      r = .ok () ∧ ¬ 48 ∣ 32 := by
  exact ⟨_, _, _, rfl, rfl, rfl, by decide⟩

/-- C98, violation. The block mask is computed on `int`: constructing a map with a block size of
`2^31` or more, powers of two among them, is undefined behaviour. -/
theorem C98_large_block_violated (k : Nat) (hk : 31 ≤ k) : create (2 ^ k) = none := by
  have h1 : 2 ^ k ≠ 0 := Nat.ne_of_gt (Nat.two_pow_pos k)
  rw [create, if_neg h1, if_pos (by rw [Nat.log2_two_pow]; exact hk)]

/-- C98. Every smaller block size gives a map. -/
theorem C98_create (bs : Nat) (h1 : 0 < bs) (h2 : bs < 2 ^ 31) : ∃ s, create bs = some s := by
  have : bs.log2 < 31 := (Nat.log2_lt (by omega)).2 h2
  exact ⟨_, by rw [create, if_neg (by omega), if_neg (by omega)]⟩

/-! ### C99: cost of a lookup -/

/-- C99. Whatever the order in which the mappings were added, a lookup in a map with `n` mappings
visits `v` nodes with `2^v ≤ (3n + 1)^2`, that is at most `2 log2(3n + 1)` nodes. -/
theorem C99_lookup_cost {bs : Nat} {s0 s : Map} {ops rs} (h0 : create bs = some s0)
    (hw : ∀ o ∈ ops, o.wf) (hr : run s0 ops = some (s, rs)) (addr : Nat) :
    ∃ v, findSteps s addr = some v ∧ 2 ^ v ≤ (3 * (accepted ops rs).length + 1) ^ 2 := by
  obtain ⟨t, I, _, _, _, hm⟩ := reach_inv h0 hw hr
  obtain ⟨res, cnt, h1, h2, _⟩ := find_iff I addr
  exact ⟨cnt, by rw [findSteps, h1]; rfl, hm ▸ h2⟩

/-- Non-vacuity of C99: twelve adjacent mappings added in ascending order, where a tree without
balancing would have a path through all of them; the last is found within 9 nodes. -/
example :
    let ops : List AddOp := (List.range 12).map (fun i => ⟨4 * i, 4 * i + 4, some ⟨i, 4, 1000⟩, 0⟩)
    ∃ s0 s rs v, create 4 = some s0 ∧ run s0 ops = some (s, rs) ∧ (accepted ops rs).length = 12 ∧
      findSteps s 47 = some v ∧ v ≤ 9 := by
  refine ⟨_, _, _, 6, rfl, rfl, ?_, ?_, ?_⟩ <;> decide +kernel

/-! ### C100: verification of an access -/

/-- C100 (partial: accesses whose end does not exceed 64 bits). `verifyHasMapping` returns exactly
when one mapping contains the whole access; it throws the "spans" exception when the first byte is
mapped and the access goes beyond that mapping, and the "no mapping" exception when the first address
is not mapped. -/
theorem C100_verify_partial {bs : Nat} {s0 s : Map} {ops rs} (h0 : create bs = some s0)
    (hw : ∀ o ∈ ops, o.wf) (hr : run s0 ops = some (s, rs)) (addr size : Nat)
    (hno : addr + size < wordSize) :
    ∃ v, verifyHasMapping s addr size = some v ∧
      (v = .ok ↔ ∃ m ∈ accepted ops rs, m.start ≤ addr ∧ addr < m.stop ∧ addr + size ≤ m.stop) ∧
      (v = .spans ↔ ∃ m ∈ accepted ops rs, m.start ≤ addr ∧ addr < m.stop ∧ m.stop < addr + size) ∧
      (v = .none ↔ ∀ m ∈ accepted ops rs, ¬ (m.start ≤ addr ∧ addr < m.stop)) := by
  obtain ⟨t, I, _, _, _, hm⟩ := reach_inv h0 hw hr
  obtain ⟨res, cnt, h1, _, h2⟩ := find_iff I addr
  rw [hm] at h2
  refine ⟨_, by rw [verifyHasMapping, verifyLoop_eq, h1, Nat.mod_eq_of_lt hno]; rfl, ?_⟩
  cases res with
  | none =>
    have hn : ∀ m ∈ accepted ops rs, ¬ (m.start ≤ addr ∧ addr < m.stop) := by
      intro m hm hh
      have := (h2 m).2 ⟨hm, hh⟩
      cases this
    refine ⟨⟨(fun h => by cases h), ?_⟩, ⟨(fun h => by cases h), ?_⟩, ⟨fun _ => hn, fun _ => rfl⟩⟩
    · rintro ⟨m, hm, a, b, _⟩; exact absurd ⟨a, b⟩ (hn m hm)
    · rintro ⟨m, hm, a, b, _⟩; exact absurd ⟨a, b⟩ (hn m hm)
  | some m0 =>
    obtain ⟨a1, a2, a3⟩ := (h2 m0).1 rfl
    have huniq : ∀ m ∈ accepted ops rs, m.start ≤ addr → addr < m.stop → m = m0 := by
      intro m hm a b
      have := (h2 m).2 ⟨hm, a, b⟩
      cases this; rfl
    simp only
    by_cases h : addr + size ≤ m0.stop
    · rw [if_pos h]
      refine ⟨⟨fun _ => ⟨m0, a1, a2, a3, h⟩, fun _ => rfl⟩, ⟨(fun h => by cases h), ?_⟩, ⟨(fun h => by cases h), ?_⟩⟩
      · rintro ⟨m, hm, a, b, c⟩
        rw [huniq m hm a b] at c; omega
      · intro hno; exact absurd ⟨a2, a3⟩ (hno m0 a1)
    · rw [if_neg h]
      refine ⟨⟨(fun h => by cases h), ?_⟩, ⟨fun _ => ⟨m0, a1, a2, a3, by omega⟩, fun _ => rfl⟩, ⟨(fun h => by cases h), ?_⟩⟩
      · rintro ⟨m, hm, a, b, c⟩
        rw [huniq m hm a b] at c; omega
      · intro hno; exact absurd ⟨a2, a3⟩ (hno m0 a1)

/-- Non-vacuity of C100: all three outcomes. -/
example : ∃ s0 s rs, create 4 = some s0 ∧
    run s0 [⟨8, 16, some ⟨1, 4, 64⟩, 0⟩, ⟨16, 20, some ⟨2, 4, 64⟩, 0⟩] = some (s, rs) ∧
    verifyHasMapping s 12 4 = some .ok ∧ verifyHasMapping s 12 5 = some .spans ∧
    verifyHasMapping s 20 1 = some .none := by
  refine ⟨_, _, _, rfl, rfl, ?_, ?_, ?_⟩ <;> decide +kernel

/-- C100, violation. The end of the access is computed in 64 bits: an access of `2^64 - 4` bytes to a
mapping of 8 bytes passes. -/
theorem C100_wrap_violated :
    ∃ s0 r s', create 4 = some s0 ∧ step s0 ⟨8, 16, some ⟨1, 4, 64⟩, 0⟩ = some (r, s') ∧
      verifyHasMapping s' 12 (2 ^ 64 - 4) = some .ok := by
  refine ⟨_, _, _, rfl, rfl, ?_⟩; decide +kernel

end Sparta.MemoryMap
